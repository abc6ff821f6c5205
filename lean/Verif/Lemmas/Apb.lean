import Verif.Model.Apb
import Verif.Spec.Apb
import Verif.Lemmas.ListRes

namespace NW.Apb
open Spec

variable {α S R E : Type}

/-! ## Loops -/

theorem foldlM_of_mapM {β γ : Type} {f : β → Res γ} {body : S → γ → Res S} {l : List β} {r : List γ} (h : l.mapM f = .ok r) (s : S) :
    l.foldlM (fun s j => do let x ← f j; body s x) s = r.foldlM body s := by
  induction l generalizing r s with
  | nil => simp at h; subst h; rfl
  | cons a l ih =>
    rw [List.mapM_cons] at h
    cases ha : f a with
    | error e => simp [ha] at h
    | ok x =>
      rw [ha, res_bind_ok] at h
      cases hl : l.mapM f with
      | error e => simp [hl] at h
      | ok xs =>
        rw [hl, res_bind_ok] at h
        simp at h; subst h
        rw [List.foldlM_cons, List.foldlM_cons, ha, res_bind_ok]
        cases body s x with
        | error e => rfl
        | ok s' => exact ih hl s'

/-- The innermost loop on the arrays visits the row. -/
theorem raw_row {g : Csr α} {i : Nat} {r : List (Nat × α)} (h : g.row i = .ok r) (body : S → Nat × α → Res S) (s : S) :
    (do
      let b ← vget g.indices i
      let e ← vget g.indices (i + 1)
      (List.range' b (e - b)).foldlM (fun s j => do let x ← g.edgeAt j; body s x) s) = r.foldlM body s := by
  unfold Csr.row Csr.rowBounds at h
  cases hb : vget g.indices i with
  | error f => simp [hb] at h
  | ok b =>
    cases he : vget g.indices (i + 1) with
    | error f => simp [hb, he] at h
    | ok e =>
      simp only [hb, he, res_bind_ok, res_pure] at h ⊢
      refine foldlM_of_mapM ?_ s
      by_cases c : b > e
      · rw [if_pos c] at h
        rw [show e - b = 0 by omega]
        rw [show e - e = 0 by omega] at h
        simpa using h
      · rw [if_neg c] at h; exact h

theorem foldlM_rows (rows : Nat → List (Nat × α)) (body : S → Nat → Nat × α → Res S) (l : List Nat) (f : S → Nat → Res S)
    (h : ∀ i ∈ l, ∀ s, f s i = (rows i).foldlM (fun s e => body s i e) s) (s : S) :
    l.foldlM f s = (l.flatMap fun u => (rows u).map fun x => (u, x)).foldlM (fun s e => body s e.1 e.2) s := by
  induction l generalizing s with
  | nil => rfl
  | cons a l ih =>
    rw [List.foldlM_cons, List.flatMap_cons, List.foldlM_append, h a (by simp), List.foldlM_map]
    congr 1
    funext s'
    exact ih (fun i hi => h i (by simp [hi])) s'

/-- The same with a counter beside the state. -/
theorem foldlM_counted (rows : Nat → List (Nat × α)) (body : S → Nat → Nat × α → Res S) (row : Nat → Res (List (Nat × α))) (b n : Nat)
    (h : ∀ i, b ≤ i → i < b + n → row i = .ok (rows i)) (s : S) :
    ((List.range' b n).foldlM (fun (p : S × Nat) u => do
        let r ← row u
        let s ← r.foldlM (fun s e => body s p.2 e) p.1
        return (s, p.2 + 1)) (s, b)) =
      (((List.range' b n).flatMap fun u => (rows u).map fun x => (u, x)).foldlM (fun s e => body s e.1 e.2) s).map fun s => (s, b + n) := by
  induction n generalizing b s with
  | zero => rfl
  | succ n ih =>
    rw [List.range'_succ, List.foldlM_cons, List.flatMap_cons, List.foldlM_append, h b (Nat.le_refl _) (by omega), List.foldlM_map, res_bind_ok]
    cases hf : (rows b).foldlM (fun s e => body s b e) s with
    | error e => rfl
    | ok s' =>
      simp only [res_bind_ok]
      rw [res_pure, res_bind_ok, ih (b + 1) (fun i h1 h2 => h i (by omega) (by omega)) s', show b + 1 + n = b + (n + 1) by omega]

/-! ## Tallies -/

theorem tally_length (pos : E → Nat) (op : R → E → R) (y : List R) (es : List E) : (tally pos op y es).length = y.length := by simp [tally]

theorem tally_getElem (pos : E → Nat) (op : R → E → R) (y : List R) (es : List E) (i : Nat) (h : i < (tally pos op y es).length) :
    (tally pos op y es)[i] = (es.filter fun e => pos e == i).foldl op (y[i]'(by rwa [tally_length] at h)) := by simp [tally]

theorem tally_nil (pos : E → Nat) (op : R → E → R) (y : List R) : tally pos op y [] = y := by
  apply List.ext_getElem
  · simp [tally]
  · intro i h1 h2; simp [tally]

/-- Executing one of the statements, if those before it concern other positions. -/
theorem tally_pick (pos : E → Nat) (op : R → E → R) (y : List R) (A B : List E) (e : E) (he : pos e < y.length) (hA : ∀ a ∈ A, pos a ≠ pos e) :
    tally pos op y (A ++ e :: B) = tally pos op (y.set (pos e) (op y[pos e] e)) (A ++ B) := by
  apply List.ext_getElem
  · simp [tally]
  · intro i h1 h2
    rw [tally_getElem, tally_getElem]
    by_cases c : pos e = i
    · subst c
      have : A.filter (fun a => pos a == pos e) = [] := by
        rw [List.filter_eq_nil_iff]; intro a ha; simpa using hA a ha
      simp [List.filter_append, this]
    · simp [List.filter_append, c]

/-- Executing all of them in order. -/
theorem foldlM_tally (pos : E → Nat) (op : R → E → R) (body : List R → E → Res (List R)) (n : Nat) (es : List E)
    (hb : ∀ y : List R, y.length = n → ∀ e ∈ es, ∃ h : pos e < y.length, body y e = .ok (y.set (pos e) (op y[pos e] e))) (y : List R) (hy : y.length = n) :
    es.foldlM body y = .ok (tally pos op y es) := by
  induction es generalizing y with
  | nil => rw [tally_nil]; rfl
  | cons e es ih =>
    obtain ⟨h1, h2⟩ := hb y hy e (by simp)
    rw [List.foldlM_cons, h2, res_bind_ok, ih (fun y hy e he => hb y hy e (by simp [he])) _ (by simpa using hy)]
    have := tally_pick pos op y [] es e h1 (by simp)
    simp only [List.nil_append] at this
    rw [this]

/-! ## Edges by source -/

theorem filter_rows {rows : Nat → List (Nat × α)} {us : List Nat} (hn : us.Nodup) (i : Nat) :
    ((us.flatMap fun u => (rows u).map fun x => (u, x)).filter fun e => e.1 == i) = if i ∈ us then (rows i).map fun x => (i, x) else [] := by
  induction us with
  | nil => simp
  | cons u us ih =>
    rw [List.nodup_cons] at hn
    rw [List.flatMap_cons, List.filter_append, ih hn.2]
    by_cases c : u = i
    · subst c
      rw [if_neg hn.1, if_pos (by simp), List.append_nil, List.filter_eq_self.2]
      intro e he
      obtain ⟨x, -, rfl⟩ := List.mem_map.1 he
      simp
    · have : ((rows u).map fun x => (u, x)).filter (fun e => e.1 == i) = [] := by
        rw [List.filter_eq_nil_iff]
        intro e he
        obtain ⟨x, -, rfl⟩ := List.mem_map.1 he
        simpa using c
      rw [this, List.nil_append]
      have c' : i ≠ u := fun h => c h.symm
      simp [c']

/-- Tallies by source. -/
theorem tally_rows {rows : Nat → List (Nat × α)} {us : List Nat} (hn : us.Nodup) (op : R → Nat × (Nat × α) → R) (y : List R) (hm : ∀ i, i < y.length → i ∈ us) :
    tally Prod.fst op y (us.flatMap fun u => (rows u).map fun x => (u, x)) = y.mapIdx fun i a => (rows i).foldl (fun a e => op a (i, e)) a := by
  apply List.ext_getElem
  · simp [tally]
  · intro i h1 h2
    rw [tally_length] at h1
    rw [tally_getElem, filter_rows hn i, if_pos (hm i h1), List.foldl_map]
    simp

/-! ## The threads -/

/-- The statements still to be executed. -/
def left (ts : List (Thread E R)) : List E := ts.flatMap Thread.todo

theorem left_split {ts : List (Thread E R)} {t : Nat} {th : Thread E R} (h : ts[t]? = some th) :
    left ts = left (ts.take t) ++ (th.todo ++ left (ts.drop (t + 1))) := by
  obtain ⟨ht, rfl⟩ := List.getElem?_eq_some_iff.1 h
  have : ts = ts.take t ++ ts[t] :: ts.drop (t + 1) := by rw [List.getElem_cons_drop, List.take_append_drop]
  conv => lhs; rw [this]
  unfold left
  rw [List.flatMap_append, List.flatMap_cons]

theorem left_set {ts : List (Thread E R)} {t : Nat} (ht : t < ts.length) (th : Thread E R) :
    left (ts.set t th) = left (ts.take t) ++ (th.todo ++ left (ts.drop (t + 1))) := by
  rw [List.set_eq_take_append_cons_drop, if_pos ht]
  simp [left, List.flatMap_append]

theorem mem_left_take {ts : List (Thread E R)} {t : Nat} {x : E} (h : x ∈ left (ts.take t)) : ∃ (u : Nat) (th : Thread E R), u ≠ t ∧ ts[u]? = some th ∧ x ∈ th.todo := by
  obtain ⟨th, h1, h2⟩ := List.mem_flatMap.1 h
  obtain ⟨u, hu, rfl⟩ := List.getElem_of_mem h1
  rw [List.length_take] at hu
  refine ⟨u, _, by omega, ?_, h2⟩
  rw [List.getElem_take, List.getElem?_eq_getElem (by omega)]

/-- What still has to be done gives the result; different threads are concerned with different positions; what was loaded is still there. -/
structure Inv (pos : E → Nat) (op : R → E → R) (n : Nat) (ok : E → Prop) (target : List R) (ts : List (Thread E R)) (y : List R) : Prop where
  goal : tally pos op y (left ts) = target
  len : y.length = n
  range : ∀ (t : Nat) (th : Thread E R), ts[t]? = some th → ∀ e ∈ th.todo, pos e < n ∧ ok e
  apart : ∀ (t u : Nat) (a b : Thread E R), t ≠ u → ts[t]? = some a → ts[u]? = some b → ∀ e ∈ a.todo, ∀ f ∈ b.todo, pos e ≠ pos f
  reg : ∀ (t : Nat) (th : Thread E R), ts[t]? = some th → ∀ r, th.loaded = some r → ∃ e es, th.todo = e :: es ∧ y[pos e]? = some r

/-- The number of steps left. -/
def work (ts : List (Thread E R)) : Nat := (ts.map fun t => 2 * t.todo.length + (if t.loaded.isSome then 0 else 1)).sum

theorem sure_of_apart (pos : E → Nat) (op : R → E → R) (opM : R → E → Res R) (n : Nat) (ok : E → Prop) (hop : ∀ r e, ok e → opM r e = .ok (op r e))
    (target : List R) (ts : List (Thread E R)) (y : List R) (h : Inv pos op n ok target ts y) :
    Sure (Step pos opM) (fun r => r = target) (ts, y) := by
  refine Sure.of_inv (Nat.lt_wfRel.wf) (fun s : List (Thread E R) × List R => work s.1) (fun s => Inv pos op n ok target s.1 s.2) ?_ ?_ (ts, y) h
  · rintro ⟨ts, y⟩ hI
    by_cases c : ∀ t ∈ ts, t.todo = []
    · exact ⟨_, .done c⟩
    · rw [Classical.not_forall] at c
      obtain ⟨th, c⟩ := c
      rw [Classical.not_imp] at c
      obtain ⟨c1, c2⟩ := c
      obtain ⟨t, ht, rfl⟩ := List.getElem_of_mem c1
      have hg := List.getElem?_eq_getElem ht
      cases hth : ts[t] with
      | mk todo loaded =>
        rw [hth] at c2 hg
        cases todo with
        | nil => exact absurd rfl c2
        | cons e es =>
          cases loaded with
          | none => exact ⟨_, .load hg⟩
          | some r => exact ⟨_, .store hg⟩
  · rintro ⟨ts, y⟩ o hI hs
    cases hs with
    | done hd =>
      refine .inr ⟨y, rfl, ?_⟩
      have : left ts = [] := by
        unfold left; rw [List.flatMap_eq_nil_iff]; exact hd
      have hg := hI.goal
      simp only [this, tally_nil] at hg
      exact hg
    | @load _ _ t e es hg =>
      refine .inl ?_
      obtain ⟨ht, -⟩ := List.getElem?_eq_some_iff.1 hg
      have hlen := hI.len
      simp only at hlen
      obtain ⟨hp, hok⟩ := hI.range t _ hg e (by simp)
      have hp' : pos e < y.length := by omega
      rw [vget_of_lt hp', res_bind_ok]
      have key : ∀ (u : Nat) (th : Thread E R), (ts.set t ⟨e :: es, some y[pos e]⟩)[u]? = some th →
          (u = t ∧ th = ⟨e :: es, some y[pos e]⟩) ∨ (u ≠ t ∧ ts[u]? = some th) := by
        intro u th hu
        rw [List.getElem?_set] at hu
        by_cases c : t = u
        · subst c; rw [if_pos rfl, if_pos ht] at hu; exact .inl ⟨rfl, by simpa using hu.symm⟩
        · rw [if_neg c] at hu; exact .inr ⟨fun h => c h.symm, hu⟩
      refine ⟨_, rfl, ⟨?_, hlen, ?_, ?_, ?_⟩, ?_⟩
      · rw [← hI.goal]
        simp only
        rw [left_set ht, left_split hg]
      · intro u th hu
        rcases key u th hu with ⟨rfl, rfl⟩ | ⟨-, h2⟩
        · exact fun f hf => hI.range _ _ hg f hf
        · exact hI.range _ _ h2
      · intro u v a b huv hu hv
        rcases key u a hu with ⟨rfl, rfl⟩ | ⟨h1, h2⟩ <;> rcases key v b hv with ⟨rfl, rfl⟩ | ⟨h3, h4⟩
        · exact absurd rfl huv
        · exact fun f hf => hI.apart _ _ _ _ huv hg h4 f hf
        · exact fun f hf k hk => hI.apart _ _ _ _ huv h2 hg f hf k hk
        · exact hI.apart _ _ _ _ huv h2 h4
      · intro u th hu r hr
        rcases key u th hu with ⟨rfl, rfl⟩ | ⟨h1, h2⟩
        · refine ⟨e, es, rfl, ?_⟩
          simp only [Option.some.injEq] at hr
          rw [List.getElem?_eq_getElem hp', hr]
        · exact hI.reg _ _ h2 r hr
      · exact sum_map_set_lt _ hg (by simp)
    | @store _ _ t e es r hg =>
      refine .inl ?_
      obtain ⟨ht, -⟩ := List.getElem?_eq_some_iff.1 hg
      have hlen := hI.len
      simp only at hlen
      obtain ⟨hp, hok⟩ := hI.range t _ hg e (by simp)
      have hp' : pos e < y.length := by omega
      rw [hop r e hok, res_bind_ok, vset_of_lt hp', res_bind_ok]
      have hr : y[pos e] = r := by
        obtain ⟨e', es', h1, h2⟩ := hI.reg t _ hg r rfl
        simp only [List.cons.injEq] at h1
        obtain ⟨rfl, rfl⟩ := h1
        simp only at h2
        rw [List.getElem?_eq_getElem hp'] at h2
        simpa using h2
      have key : ∀ (u : Nat) (th : Thread E R), (ts.set t ⟨es, none⟩)[u]? = some th → (u = t ∧ th = ⟨es, none⟩) ∨ (u ≠ t ∧ ts[u]? = some th) := by
        intro u th hu
        rw [List.getElem?_set] at hu
        by_cases c : t = u
        · subst c; rw [if_pos rfl, if_pos ht] at hu; exact .inl ⟨rfl, by simpa using hu.symm⟩
        · rw [if_neg c] at hu; exact .inr ⟨fun h => c h.symm, hu⟩
      refine ⟨_, rfl, ⟨?_, by simpa using hlen, ?_, ?_, ?_⟩, ?_⟩
      · rw [← hI.goal]
        simp only
        rw [left_set ht, left_split hg]
        simp only [List.cons_append]
        rw [tally_pick pos op y _ _ e hp', hr]
        intro x hx
        obtain ⟨u, th, h1, h2, h3⟩ := mem_left_take hx
        exact hI.apart u t _ _ h1 h2 hg x h3 e (by simp)
      · intro u th hu
        rcases key u th hu with ⟨rfl, rfl⟩ | ⟨-, h2⟩
        · exact fun f hf => hI.range _ _ hg f (by simp [hf])
        · exact hI.range _ _ h2
      · intro u v a b huv hu hv
        rcases key u a hu with ⟨rfl, rfl⟩ | ⟨h1, h2⟩ <;> rcases key v b hv with ⟨rfl, rfl⟩ | ⟨h3, h4⟩
        · exact absurd rfl huv
        · exact fun f hf => hI.apart _ _ _ _ huv hg h4 f (by simp [hf])
        · exact fun f hf k hk => hI.apart _ _ _ _ huv h2 hg f hf k (by simp [hk])
        · exact hI.apart _ _ _ _ huv h2 h4
      · intro u th hu s hs
        rcases key u th hu with ⟨rfl, rfl⟩ | ⟨h1, h2⟩
        · simp at hs
        · obtain ⟨f, fs, h3, h4⟩ := hI.reg _ _ h2 s hs
          refine ⟨f, fs, h3, ?_⟩
          have := hI.apart u t _ _ h1 h2 hg f (by rw [h3]; simp) e (by simp)
          rw [List.getElem?_set, if_neg (fun h => this h.symm)]
          exact h4
      · exact sum_map_set_lt _ hg (by simp; omega)

/-! ## Increments that may get lost -/

/-- No position, and no loaded value, is ahead of what has been done. -/
structure Below (pos : E → Nat) (n : Nat) (M : Nat → Nat) (ts : List (Thread E Nat)) (y : List Nat) : Prop where
  len : y.length = n
  range : ∀ (t : Nat) (th : Thread E Nat), ts[t]? = some th → ∀ e ∈ th.todo, pos e < n
  mem : ∀ (i : Nat) (h : i < y.length), y[i] + (left ts).countP (fun e => pos e == i) ≤ M i
  reg : ∀ (t : Nat) (e : E) (es : List E) (r : Nat), ts[t]? = some ⟨e :: es, some r⟩ → r + (left ts).countP (fun f => pos f == pos e) ≤ M (pos e)
  none : ∀ (t : Nat) (th : Thread E Nat), ts[t]? = some th → th.todo = [] → th.loaded = Option.none

theorem sure_below (pos : E → Nat) (n : Nat) (M : Nat → Nat) (ts : List (Thread E Nat)) (y : List Nat) (h : Below pos n M ts y) :
    Sure (Step pos (fun a (_ : E) => (.ok (a + 1) : Res Nat))) (fun r => r.length = n ∧ ∀ (i : Nat) (h : i < r.length), r[i] ≤ M i) (ts, y) := by
  refine Sure.of_inv (Nat.lt_wfRel.wf) (fun s : List (Thread E Nat) × List Nat => work s.1) (fun s => Below pos n M s.1 s.2) ?_ ?_ (ts, y) h
  · rintro ⟨ts, y⟩ hI
    by_cases c : ∀ t ∈ ts, t.todo = []
    · exact ⟨_, .done c⟩
    · rw [Classical.not_forall] at c
      obtain ⟨th, c⟩ := c
      rw [Classical.not_imp] at c
      obtain ⟨c1, c2⟩ := c
      obtain ⟨t, ht, rfl⟩ := List.getElem_of_mem c1
      have hg := List.getElem?_eq_getElem ht
      cases hth : ts[t] with
      | mk todo loaded =>
        rw [hth] at c2 hg
        cases todo with
        | nil => exact absurd rfl c2
        | cons e es =>
          cases loaded with
          | none => exact ⟨_, .load hg⟩
          | some r => exact ⟨_, .store hg⟩
  · rintro ⟨ts, y⟩ o hI hs
    cases hs with
    | done hd =>
      refine .inr ⟨y, rfl, hI.len, ?_⟩
      intro i hi
      have := hI.mem i hi
      simp only at this
      omega
    | @load _ _ t e es hg =>
      refine .inl ?_
      obtain ⟨ht, -⟩ := List.getElem?_eq_some_iff.1 hg
      have hlen := hI.len
      simp only at hlen
      have hp := hI.range t _ hg e (by simp)
      have hp' : pos e < y.length := by omega
      rw [vget_of_lt hp', res_bind_ok]
      have hl : left (ts.set t ⟨e :: es, some y[pos e]⟩) = left ts := by rw [left_set ht, left_split hg]
      have key : ∀ (u : Nat) (th : Thread E Nat), (ts.set t ⟨e :: es, some y[pos e]⟩)[u]? = some th →
          (u = t ∧ th = ⟨e :: es, some y[pos e]⟩) ∨ (u ≠ t ∧ ts[u]? = some th) := by
        intro u th hu
        rw [List.getElem?_set] at hu
        by_cases c : t = u
        · subst c; rw [if_pos rfl, if_pos ht] at hu; exact .inl ⟨rfl, by simpa using hu.symm⟩
        · rw [if_neg c] at hu; exact .inr ⟨fun h => c h.symm, hu⟩
      refine ⟨_, rfl, ⟨hlen, ?_, ?_, ?_, ?_⟩, ?_⟩
      · intro u th hu
        rcases key u th hu with ⟨rfl, rfl⟩ | ⟨-, h2⟩
        · exact fun f hf => hI.range _ _ hg f hf
        · exact hI.range _ _ h2
      · intro i hi
        simp only at hi ⊢
        rw [hl]; exact hI.mem i hi
      · intro u f fs r hu
        simp only at hu ⊢
        rw [hl]
        rcases key u _ hu with ⟨rfl, h1⟩ | ⟨-, h2⟩
        · simp only [Thread.mk.injEq, List.cons.injEq, Option.some.injEq] at h1
          obtain ⟨⟨rfl, rfl⟩, rfl⟩ := h1
          exact hI.mem _ hp'
        · exact hI.reg _ _ _ _ h2
      · intro u th hu h0
        rcases key u th hu with ⟨rfl, rfl⟩ | ⟨-, h2⟩
        · simp at h0
        · exact hI.none _ _ h2 h0
      · exact sum_map_set_lt _ hg (by simp)
    | @store _ _ t e es r hg =>
      refine .inl ?_
      obtain ⟨ht, -⟩ := List.getElem?_eq_some_iff.1 hg
      have hlen := hI.len
      simp only at hlen
      have hp := hI.range t _ hg e (by simp)
      have hp' : pos e < y.length := by omega
      rw [res_bind_ok, vset_of_lt hp', res_bind_ok]
      have hl : ∀ i, (left ts).countP (fun f => pos f == i) = (left (ts.set t ⟨es, none⟩)).countP (fun f => pos f == i) + (if pos e = i then 1 else 0) := by
        intro i
        rw [left_set ht, left_split hg]
        simp only [List.cons_append, List.countP_append, List.countP_cons, beq_iff_eq]
        omega
      have key : ∀ (u : Nat) (th : Thread E Nat), (ts.set t ⟨es, none⟩)[u]? = some th → (u = t ∧ th = ⟨es, none⟩) ∨ (u ≠ t ∧ ts[u]? = some th) := by
        intro u th hu
        rw [List.getElem?_set] at hu
        by_cases c : t = u
        · subst c; rw [if_pos rfl, if_pos ht] at hu; exact .inl ⟨rfl, by simpa using hu.symm⟩
        · rw [if_neg c] at hu; exact .inr ⟨fun h => c h.symm, hu⟩
      refine ⟨_, rfl, ⟨by simpa using hlen, ?_, ?_, ?_, ?_⟩, ?_⟩
      · intro u th hu
        rcases key u th hu with ⟨rfl, rfl⟩ | ⟨-, h2⟩
        · exact fun f hf => hI.range _ _ hg f (by simp [hf])
        · exact hI.range _ _ h2
      · intro i hi
        simp only [List.length_set] at hi ⊢
        have hm := hI.mem i hi
        have hli := hl i
        simp only at hm
        by_cases c : pos e = i
        · subst c
          have hr := hI.reg t e es r hg
          simp only at hr
          rw [if_pos rfl] at hli
          rw [List.getElem_set_self]
          omega
        · rw [List.getElem_set_ne c]
          omega
      · intro u f fs s hu
        simp only at hu ⊢
        rcases key u _ hu with ⟨rfl, h1⟩ | ⟨-, h2⟩
        · simp at h1
        · have := hI.reg _ _ _ _ h2
          have hli := hl (pos f)
          simp only at this
          omega
      · intro u th hu h0
        rcases key u th hu with ⟨rfl, rfl⟩ | ⟨-, h2⟩
        · rfl
        · exact hI.none _ _ h2 h0
      · exact sum_map_set_lt _ hg (by simp; omega)

end NW.Apb
