import Verif.Spec.BcAsync
import Verif.Lemmas.BcAsyncEnd

/-! # Lemmas: the threads of the search -/

namespace NW.BcAsync
open Spec Fifo
open NW.Brandes (Vec)
open NW.BcWork

variable {α : Type} {M inf : Nat} {g : Rows α} {s : Nat}

/-- The items a thread has taken from the work list or is about to push. -/
def Thr.items : Thr → List (Nat × Nat)
  | .fetch => []
  | .test x => x.toList
  | .hold u v => [(u, v)]
  | .push es => es
  | .ended => []

/-- The items that are somewhere. -/
def InBag (st : St) (e : Nat × Nat) : Prop := e ∈ st.W ∨ e ∈ st.lost ∨ ∃ (i : Nat) (t : Thr), st.ts[i]? = some t ∧ e ∈ t.items

/-- The nodes as a function. -/
def nodeAt (vs : List Node) (v : Nat) : Node := vs.getD v { l := 0, pc := 0, preds := [], succs := [], edge := fun _ => (0, 0) }

theorem nodeAt_eq {n : Nat} {F : Nat → Node} {vs : List Node} (h : Vec n F vs) {v : Nat} (hv : v < n) : nodeAt vs v = F v := by
  unfold nodeAt
  rw [List.getD_eq_getElem?_getD, h.2 v hv]; rfl

theorem mu_congr {n : Nat} {F F' : Nat → Node} (h : ∀ v < n, F v = F' v) : mu n inf F = mu n inf F' := by
  have e1 : m1 n F = m1 n F' := by
    unfold m1
    exact Finset.sum_congr rfl fun z hz => by rw [h z (by simpa using hz)]
  have e2 : m2 n inf F = m2 n inf F' := by
    unfold m2
    refine Finset.sum_congr rfl fun x hx => Finset.sum_congr rfl fun y hy => if_congr ?_ rfl rfl
    unfold Bad
    rw [h x (by simpa using hx), h y (by simpa using hy)]
  have e3 : m3 n F = m3 n F' := by
    unfold m3
    refine Finset.sum_congr rfl fun x hx => Finset.sum_congr rfl fun y hy => if_congr ?_ (by rw [h x (by simpa using hx)]) rfl
    unfold Us
    rw [h x (by simpa using hx), h y (by simpa using hy)]
  unfold mu
  rw [e1, e2, e3]

/-- What holds between the steps; `row` is the row of the source. -/
structure TI (M inf : Nat) (g : Rows α) (s : Nat) (ne : Prop) (F : Nat → Node) (st : St) : Prop where
  vec : Vec g.length F st.vs
  ci : CI M inf g s F
  act : Act inf g F (InBag st)
  items : ∀ e, InBag st e → Edge g e.1 e.2 ∧ (F e.1).l ≠ inf
  live : 0 < st.ts.length → (∃ t ∈ st.ts, t ≠ Thr.ended) ∨ st.W = []
  kept : ne → st.W ≠ [] ∨ st.lost ≠ [] ∨ ∃ (i : Nat) (e : Nat × Nat), st.ts[i]? = some (Thr.test (some e))

/-- The weight of a thread. -/
def wt (N : Nat) (W : List (Nat × Nat)) : Thr → Nat
  | .fetch => 2
  | .test none => if W.isEmpty then 1 else 3
  | .test (some _) => 5
  | .hold _ _ => 4
  | .push es => 3 + es.length * (2 * N + 5)
  | .ended => 0

def loc (st : St) : Nat := 4 * st.W.length + (st.ts.map (wt st.ts.length st.W)).sum

theorem sum_map_set {τ : Type} (w : τ → Nat) {ts : List τ} {i : Nat} {t : τ} (t' : τ) (h : ts[i]? = some t) : ((ts.set i t').map w).sum + w t = (ts.map w).sum + w t' := by
  induction ts generalizing i with
  | nil => simp at h
  | cons x xs ih =>
    cases i with
    | zero =>
      simp at h; subst h
      simp; omega
    | succ i =>
      simp at h
      have := ih h
      simp only [List.set_cons_succ, List.map_cons, List.sum_cons]
      omega

theorem sum_map_le {τ : Type} (w w' : τ → Nat) (c : Nat) (ts : List τ) (h : ∀ t ∈ ts, w t ≤ w' t + c) : (ts.map w).sum ≤ (ts.map w').sum + c * ts.length := by
  induction ts with
  | nil => simp
  | cons x xs ih =>
    have h1 := h x (by simp)
    have h2 := ih fun t ht => h t (by simp [ht])
    simp only [List.map_cons, List.sum_cons, List.length_cons, Nat.mul_add]
    omega

theorem wt_le {N : Nat} {W W' : List (Nat × Nat)} (t : Thr) : wt N W t ≤ wt N W' t + 2 := by
  cases t with
  | test x =>
    cases x with
    | none => simp only [wt]; split <;> split <;> omega
    | some e => simp only [wt]; omega
  | _ => simp only [wt]; omega

theorem wt_mono {N : Nat} {W W' : List (Nat × Nat)} (h : W' = [] → W = []) (t : Thr) : wt N W t ≤ wt N W' t := by
  cases t with
  | test x =>
    cases x with
    | none =>
      simp only [wt]
      split
      · split <;> omega
      · rename_i c
        rw [if_neg]
        rw [List.isEmpty_iff] at c ⊢
        exact fun hh => c (h hh)
    | some e => simp only [wt]; omega
  | _ => simp only [wt]; omega

/-- Without a change of the work list. -/
theorem loc_set {st : St} {i : Nat} {t t' : Thr} (h : st.ts[i]? = some t) (vs' : List Node) (lost' : List (Nat × Nat)) (hw : wt st.ts.length st.W t' < wt st.ts.length st.W t) :
    loc { vs := vs', W := st.W, ts := st.ts.set i t', lost := lost' } < loc st := by
  unfold loc
  simp only [List.length_set]
  have := sum_map_set (wt st.ts.length st.W) t' h
  omega

/-- Something between the states of the threads. -/
theorem inBag_set {st : St} {i : Nat} {t t' : Thr} (h : st.ts[i]? = some t) {vs' : List Node} {W' lost' : List (Nat × Nat)} {e : Nat × Nat} :
    InBag { vs := vs', W := W', ts := st.ts.set i t', lost := lost' } e ↔ e ∈ W' ∨ e ∈ lost' ∨ e ∈ t'.items ∨ ∃ (j : Nat) (t : Thr), j ≠ i ∧ st.ts[j]? = some t ∧ e ∈ t.items := by
  unfold InBag
  constructor
  · rintro (k | k | ⟨j, x, hj, hx⟩)
    · exact Or.inl k
    · exact Or.inr (Or.inl k)
    · rcases getElem?_set_cases hj with ⟨rfl, rfl⟩ | ⟨a, b⟩
      · exact Or.inr (Or.inr (Or.inl hx))
      · exact Or.inr (Or.inr (Or.inr ⟨j, x, fun hh => a hh.symm, b, hx⟩))
  · rintro (k | k | k | ⟨j, x, a, b, hx⟩)
    · exact Or.inl k
    · exact Or.inr (Or.inl k)
    · exact Or.inr (Or.inr ⟨i, t', getElem?_set_same h, k⟩)
    · exact Or.inr (Or.inr ⟨j, x, by rw [getElem?_set_other a.symm]; exact b, hx⟩)

theorem inBag_iff {st : St} {i : Nat} {t : Thr} (h : st.ts[i]? = some t) {e : Nat × Nat} :
    InBag st e ↔ e ∈ st.W ∨ e ∈ st.lost ∨ e ∈ t.items ∨ ∃ (j : Nat) (t : Thr), j ≠ i ∧ st.ts[j]? = some t ∧ e ∈ t.items := by
  unfold InBag
  constructor
  · rintro (k | k | ⟨j, x, hj, hx⟩)
    · exact Or.inl k
    · exact Or.inr (Or.inl k)
    · by_cases c : j = i
      · subst c
        rw [h] at hj; cases hj
        exact Or.inr (Or.inr (Or.inl hx))
      · exact Or.inr (Or.inr (Or.inr ⟨j, x, c, hj, hx⟩))
  · rintro (k | k | k | ⟨j, x, a, b, hx⟩)
    · exact Or.inl k
    · exact Or.inr (Or.inl k)
    · exact Or.inr (Or.inr ⟨i, t, h, k⟩)
    · exact Or.inr (Or.inr ⟨j, x, b, hx⟩)

theorem TI.move {ne : Prop} {F : Nat → Node} {st : St} (h : TI M inf g s ne F st) {i : Nat} {t t' : Thr} (ht : st.ts[i]? = some t) {W' lost' : List (Nat × Nat)}
    (hbag : ∀ e, (e ∈ W' ∨ e ∈ lost' ∨ e ∈ t'.items) ↔ (e ∈ st.W ∨ e ∈ st.lost ∨ e ∈ t.items)) (hlive : t' ≠ .ended ∨ W' = [])
    (hsome : st.W ≠ [] ∨ st.lost ≠ [] ∨ (∃ e, t = .test (some e)) → W' ≠ [] ∨ lost' ≠ [] ∨ ∃ e, t' = .test (some e)) :
    TI M inf g s ne F { vs := st.vs, W := W', ts := st.ts.set i t', lost := lost' } := by
  have hb : ∀ e, InBag { vs := st.vs, W := W', ts := st.ts.set i t', lost := lost' } e ↔ InBag st e := by
    intro e
    have assoc : ∀ a b c d : Prop, (a ∨ b ∨ c ∨ d) ↔ ((a ∨ b ∨ c) ∨ d) := fun a b c d => by simp only [or_assoc]
    rw [inBag_set ht, inBag_iff ht, assoc, assoc (e ∈ st.W), hbag e]
  refine ⟨h.vec, h.ci, fun x y a b c => (hb _).2 (h.act x y a b c), fun e he => h.items e ((hb e).1 he), ?_, ?_⟩
  · intro _
    rcases hlive with k | k
    · exact Or.inl ⟨t', List.mem_of_getElem? (getElem?_set_same ht), k⟩
    · exact Or.inr k
  · intro hne
    have lift : (W' ≠ [] ∨ lost' ≠ [] ∨ ∃ e, t' = .test (some e)) → W' ≠ [] ∨ lost' ≠ [] ∨ ∃ (j : Nat) (e : Nat × Nat), (st.ts.set i t')[j]? = some (Thr.test (some e)) := by
      rintro (k | k | ⟨e, rfl⟩)
      · exact Or.inl k
      · exact Or.inr (Or.inl k)
      · exact Or.inr (Or.inr ⟨i, e, getElem?_set_same ht⟩)
    rcases h.kept hne with k | k | ⟨j, e, k⟩
    · exact lift (hsome (Or.inl k))
    · exact lift (hsome (Or.inr (Or.inl k)))
    · by_cases c : i = j
      · subst c
        rw [ht] at k; cases k
        exact lift (hsome (Or.inr (Or.inr ⟨e, rfl⟩)))
      · exact Or.inr (Or.inr ⟨j, e, by rw [getElem?_set_other c]; exact k⟩)

/-- One step of the threads. -/
theorem thread_step {locks : Bool} {ne : Prop} (hinf : g.length < inf) (hM : 0 < M) (hg : InRange g) (hloop : ∀ u, ¬ Edge g u u) {F : Nat → Node} {st : St} (h : TI M inf g s ne F st)
    {o : Res (St ⊕ St)} (hs : Step M inf locks g st o) :
    (∃ st' F', o = .ok (.inl st') ∧ TI M inf g s ne F' st' ∧ st'.ts.length = st.ts.length ∧ (muLt (mu g.length inf F') (mu g.length inf F) ∨ (F' = F ∧ loc st' < loc st))) ∨
      (o = .ok (.inr st) ∧ ∀ t ∈ st.ts, t = .ended) := by
  cases hs with
  | @take i e pre post ht hW =>
    left
    refine ⟨_, F, rfl, h.move ht ?_ (Or.inl (by simp)) ?_, by simp, Or.inr ⟨rfl, ?_⟩⟩
    · intro x; rw [hW]; simp [Thr.items]; tauto
    · intro _; exact Or.inr (Or.inr ⟨e, rfl⟩)
    · unfold loc
      simp only [List.length_set, hW, List.length_append, List.length_cons]
      have h1 := sum_map_set (wt st.ts.length (pre ++ post)) (.test (some e)) ht
      have h2 := sum_map_le (wt st.ts.length (pre ++ post)) (wt st.ts.length (pre ++ e :: post)) 0 st.ts fun t _ => by
        have := wt_mono (N := st.ts.length) (W := pre ++ post) (W' := pre ++ e :: post) (fun hh => by simp at hh) t
        omega
      have e1 : wt st.ts.length (pre ++ post) (.test (some e)) = 5 := rfl
      have e2 : wt st.ts.length (pre ++ post) .fetch = 2 := rfl
      omega
  | @none i ht hW =>
    left
    refine ⟨_, F, rfl, h.move ht ?_ (Or.inl (by simp)) ?_, by simp, Or.inr ⟨rfl, loc_set ht _ _ ?_⟩⟩
    · intro x; simp [Thr.items]
    · rintro (k | k | ⟨e, k⟩)
      · exact Or.inl k
      · exact Or.inr (Or.inl k)
      · cases k
    · rw [hW]; simp [wt]
  | @leave i x ht hW =>
    left
    refine ⟨_, F, rfl, h.move ht ?_ (Or.inr hW) ?_, by simp, Or.inr ⟨rfl, loc_set ht _ _ ?_⟩⟩
    · intro y; simp [Thr.items]
    · rintro (k | k | ⟨e, k⟩)
      · exact Or.inl k
      · exact Or.inr (Or.inl (by simp [k]))
      · cases k
        exact Or.inr (Or.inl (by simp))
    · cases x with
      | none => rw [hW]; simp [wt]
      | some e => simp [wt]
  | @item i u v ht hW h0 =>
    left
    refine ⟨_, F, rfl, h.move ht ?_ (Or.inl (by simp)) ?_, by simp, Or.inr ⟨rfl, loc_set ht _ _ ?_⟩⟩
    · intro y; simp [Thr.items]
    · intro _; exact Or.inl hW
    · simp [wt]
  | @dummy i x ht hW hx =>
    left
    have hxn : x = none := by
      cases x with
      | none => rfl
      | some e =>
        simp at hx
        subst hx
        have := (h.items (0, 0) ((inBag_iff ht).2 (Or.inr (Or.inr (Or.inl (by simp [Thr.items])))))).1
        exact absurd this (hloop 0)
    subst hxn
    refine ⟨_, F, rfl, h.move ht ?_ (Or.inl (by simp)) ?_, by simp, Or.inr ⟨rfl, loc_set ht _ _ ?_⟩⟩
    · intro y; simp [Thr.items]
    · intro _; exact Or.inl hW
    · simp [wt, hW]
  | @apply i u v ord ht hl hord =>
    left
    obtain ⟨he, hr⟩ := h.items (u, v) ((inBag_iff ht).2 (Or.inr (Or.inr (Or.inl (by simp [Thr.items])))))
    obtain ⟨vs', new, F', e1, e2, e3, e4⟩ := work_step h.ci hinf hM hg hord h.vec he hr h.act
    refine ⟨{ st with vs := vs', ts := st.ts.set i (.push new) }, F', by rw [e1]; rfl, ⟨e2, e3.ci, ?_, ?_, ?_, ?_⟩, by simp, ?_⟩
    · intro x y hxy hx hen
      rw [inBag_set ht]
      rcases e3.act x y hxy hx hen with ⟨k, k2⟩ | k
      · rcases (inBag_iff ht).1 k with k | k | k | k
        · exact Or.inl k
        · exact Or.inr (Or.inl k)
        · simp [Thr.items] at k
          exact absurd (by rw [k.1, k.2]) k2
        · exact Or.inr (Or.inr (Or.inr k))
      · exact Or.inr (Or.inr (Or.inl k))
    · intro e hbag
      rw [inBag_set ht] at hbag
      have hold : InBag st e → Edge g e.1 e.2 ∧ (F' e.1).l ≠ inf := fun k => ⟨(h.items e k).1, e3.reach _ (h.items e k).2⟩
      rcases hbag with k | k | k | k
      · exact hold (Or.inl k)
      · exact hold (Or.inr (Or.inl k))
      · exact e3.items e k
      · exact hold ((inBag_iff ht).2 (Or.inr (Or.inr (Or.inr k))))
    · intro _
      exact Or.inl ⟨.push new, List.mem_of_getElem? (getElem?_set_same ht), by simp⟩
    · intro hne
      rcases h.kept hne with k | k | ⟨j, e, k⟩
      · exact Or.inl k
      · exact Or.inr (Or.inl k)
      · refine Or.inr (Or.inr ⟨j, e, ?_⟩)
        show (st.ts.set i (.push new))[j]? = _
        rw [getElem?_set_other (by rintro rfl; rw [ht] at k; cases k)]
        exact k
    · rcases e4 with k | ⟨k, k2, k3⟩
      · exact Or.inl k
      · right
        subst k3
        exact ⟨k, loc_set ht _ _ (by simp [wt])⟩
  | @push i e es ht =>
    left
    refine ⟨_, F, rfl, h.move ht ?_ (Or.inl (by simp)) ?_, by simp, Or.inr ⟨rfl, ?_⟩⟩
    · intro x; simp [Thr.items]; tauto
    · intro _; exact Or.inl (by simp)
    · unfold loc
      simp only [List.length_set, List.length_append, List.length_cons, List.length_nil]
      have h1 := sum_map_set (wt st.ts.length (st.W ++ [e])) (.push es) ht
      have h2 := sum_map_le (wt st.ts.length (st.W ++ [e])) (wt st.ts.length st.W) 2 st.ts fun t _ => wt_le t
      have e1 : wt st.ts.length (st.W ++ [e]) (.push es) = 3 + es.length * (2 * st.ts.length + 5) := rfl
      have e2 : wt st.ts.length (st.W ++ [e]) (.push (e :: es)) = 3 + (es.length + 1) * (2 * st.ts.length + 5) := rfl
      rw [Nat.add_mul, Nat.one_mul] at e2
      omega
  | @pushed i ht =>
    left
    refine ⟨_, F, rfl, h.move ht ?_ (Or.inl (by simp)) ?_, by simp, Or.inr ⟨rfl, loc_set ht _ _ ?_⟩⟩
    · intro y; simp [Thr.items]
    · rintro (k | k | ⟨e, k⟩)
      · exact Or.inl k
      · exact Or.inr (Or.inl k)
      · cases k
    · simp [wt]
  | join hh => exact Or.inr ⟨rfl, hh⟩

/-- Some step is possible. -/
theorem thread_go {locks : Bool} {ne : Prop} (hloop : ∀ u, ¬ Edge g u u) {F : Nat → Node} {st : St} (h : TI M inf g s ne F st) : ∃ o, Step M inf locks g st o := by
  by_cases c : ∀ t ∈ st.ts, t = .ended
  · exact ⟨_, .join c⟩
  · have : ∃ t ∈ st.ts, t ≠ .ended := by
      by_contra hh
      exact c fun t ht => by
        by_contra hne
        exact hh ⟨t, ht, hne⟩
    obtain ⟨t, ht, hne⟩ := this
    obtain ⟨i, hi⟩ := List.getElem?_of_mem ht
    cases t with
    | fetch =>
      cases hW : st.W with
      | nil => exact ⟨_, .none hi hW⟩
      | cons e W => exact ⟨_, .take (pre := []) hi hW⟩
    | test x =>
      by_cases hW : st.W = []
      · exact ⟨_, .leave hi hW⟩
      · by_cases hx : x.getD (0, 0) = (0, 0)
        · exact ⟨_, .dummy hi hW hx⟩
        · cases x with
          | none => simp at hx
          | some e => exact ⟨_, .item (u := e.1) (v := e.2) hi hW hx⟩
    | hold u v =>
      have he := (h.items (u, v) ((inBag_iff hi).2 (Or.inr (Or.inr (Or.inl (by simp [Thr.items])))))).1
      refine ⟨_, .apply (ord := fun _ l => l) hi (fun _ hh => ?_) fun _ l => List.Perm.refl l⟩
      subst hh
      exact hloop _ he
    | push es =>
      cases es with
      | nil => exact ⟨_, .pushed hi⟩
      | cons e es => exact ⟨_, .push hi⟩
    | ended => exact absurd rfl hne

/-- The threads, in any order. -/
theorem threads_sure {locks : Bool} {ne : Prop} (hinf : g.length < inf) (hM : 0 < M) (hg : InRange g) (hloop : ∀ u, ¬ Edge g u u) {F : Nat → Node} {st : St} (h : TI M inf g s ne F st) :
    Sure (Step M inf locks g) (fun r => (∃ F', TI M inf g s ne F' r) ∧ (∀ t ∈ r.ts, t = .ended) ∧ r.ts.length = st.ts.length) st := by
  refine Sure.of_inv (lt := Prod.Lex muLt (· < ·)) (Prod.lex ⟨_, muLt_wf⟩ ⟨_, Nat.lt_wfRel.wf⟩).wf (fun r => (mu g.length inf (nodeAt r.vs), loc r))
    (fun r => (∃ F', TI M inf g s ne F' r) ∧ r.ts.length = st.ts.length) ?_ ?_ st ⟨⟨F, h⟩, rfl⟩
  · rintro r ⟨⟨F', hF⟩, -⟩
    exact thread_go hloop hF
  · rintro r o ⟨⟨F', hF⟩, hlen⟩ hs
    rcases thread_step hinf hM hg hloop hF hs with ⟨r', F2, e1, h2, e3, e4⟩ | ⟨e1, e2⟩
    · left
      refine ⟨r', e1, ⟨⟨F2, h2⟩, by rw [e3, hlen]⟩, ?_⟩
      have k1 : mu g.length inf (nodeAt r.vs) = mu g.length inf F' := mu_congr fun v hv => nodeAt_eq hF.vec hv
      have k2 : mu g.length inf (nodeAt r'.vs) = mu g.length inf F2 := mu_congr fun v hv => nodeAt_eq h2.vec hv
      rw [k1, k2]
      rcases e4 with k | ⟨rfl, k⟩
      · exact .left _ _ k
      · exact .right _ k
    · right
      exact ⟨r, e1, ⟨F', hF⟩, e2, hlen⟩

theorem TI.left {ne : Prop} (hinf : g.length < inf) (hM : 0 < M) (hg : InRange g) (hs : s < g.length) {F : Nat → Node} {r : St} (h : TI M inf g s ne F r) (hend : ∀ t ∈ r.ts, t = .ended)
    (hlen : 0 < r.ts.length) : Left M inf g s ne r := by
  have hW : r.W = [] := by
    rcases h.live hlen with ⟨t, ht, hne⟩ | k
    · exact absurd (hend t ht) hne
    · exact k
  have hbag : ∀ e, InBag r e ↔ e ∈ r.lost := by
    intro e
    unfold InBag
    rw [hW]
    constructor
    · rintro (k | k | ⟨i, t, hi, k⟩)
      · simp at k
      · exact k
      · rw [hend t (List.mem_of_getElem? hi)] at k
        simp [Thr.items] at k
    · exact fun k => Or.inr (Or.inl k)
  refine ⟨hW, ?_, ?_, ?_⟩
  · intro e he
    obtain ⟨a1, a2⟩ := h.items e ((hbag e).2 he)
    exact ⟨a1, _, h.ci.walk _ a1.src_lt a2⟩
  · intro hne
    rcases h.kept hne with k | k | ⟨i, e, k⟩
    · exact absurd hW k
    · exact k
    · have := hend _ (List.mem_of_getElem? k)
      cases this
  · intro hset
    refine h.ci.searched ?_ hinf hg hs h.vec
    intro x y hxy hx hen
    have hl := (hbag _).1 (h.act x y hxy hx hen)
    have hw := hset (x, y) hl
    obtain ⟨vs', new, F', e1, e2, e3, e4⟩ := work_step h.ci hinf hM hg (ord := fun _ l => l) (fun _ l => List.Perm.refl l) h.vec hxy hx h.act
    rw [hw] at e1
    cases e1
    rcases e4 with k | ⟨rfl, -, -⟩
    · have : mu g.length inf F' = mu g.length inf F := by
        rw [← mu_congr fun v hv => nodeAt_eq e2 hv, ← mu_congr fun v hv => nodeAt_eq h.vec hv]
      rw [this] at k
      exact muLt_wf.irrefl.irrefl _ k
    · rcases e3.act x y hxy hx hen with ⟨-, k⟩ | k
      · exact k rfl
      · simp at k

end NW.BcAsync
