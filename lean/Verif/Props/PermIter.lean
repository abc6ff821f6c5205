import Verif.Model.PermIter
import Verif.Lemmas.ListRes
import Mathlib.Data.List.Perm.Subperm
import Mathlib.Data.List.Nodup

/-!
# C141: a permutation iterator goes through the elements in the order of the permutation
-/

namespace NW.PermIter

variable {α : Type}

/-- The position that the iterator refers to after `k` steps. -/
def pos (it : It) (k : Nat) : Int := it.base + it.perm (it.i + k)

theorem pos_next (it : It) (k : Nat) : pos (next it) k = pos it (k + 1) := by
  unfold pos next
  dsimp only
  congr 2
  omega

theorem pos_zero (it : It) : pos it 0 = it.base + it.perm it.i := by simp [pos]

theorem at_ok {v : List α} {p : Int} {x : α} : at' v p = .ok x ↔ 0 ≤ p ∧ v[p.toNat]? = some x := by
  unfold at'
  split
  · rename_i h
    rw [vget_eq_ok]
    exact ⟨fun h' => ⟨h, h'⟩, fun h' => h'.2⟩
  · rename_i h
    simp [h]

theorem at_error {v : List α} {p : Int} (h : p < 0 ∨ (v.length : Int) ≤ p) : at' v p = .error .outOfBounds := by
  unfold at'
  split
  · exact vget_of_ge (by omega)
  · rfl

/-- C141, reading: `n` steps before the end, with the same base and any function in place of the permutation, the loop gives the elements at the positions that the function gives, in this order. -/
theorem perm_iter_reads (v : List α) (it last : It) (xs : List α) (hb : last.base = it.base) (hi : last.i = it.i + xs.length)
    (h : ∀ k x, xs[k]? = some x → 0 ≤ pos it k ∧ v[(pos it k).toNat]? = some x) : (range v last).Visits it (.ok xs) := by
  refine Iter.visits_of (range v last) (fun it xs => last.base = it.base ∧ last.i = it.i + xs.length ∧ ∀ k x, xs[k]? = some x → 0 ≤ pos it k ∧ v[(pos it k).toNat]? = some x) ?_ ?_ ⟨hb, hi, h⟩
  · rintro s ⟨h1, h2, -⟩
    have : last.i = s.i := by simpa using h2
    simp [range, ne, h1, this]
  · rintro s x xs ⟨h1, h2, h3⟩
    have hne : s.i ≠ last.i := by
      rw [h2]
      simp only [List.length_cons]
      omega
    refine ⟨by simp [range, ne, hne], ?_, next s, rfl, h1, ?_, fun k y hy => ?_⟩
    · show at' v _ = _
      rw [at_ok, ← pos_zero]
      exact h3 0 x rfl
    · rw [h2]
      simp only [List.length_cons, next]
      omega
    · rw [pos_next]
      exact h3 (k + 1) y (by simpa using hy)

/-- C141, out of bounds: if one of the positions is not in the vector, the loop accesses memory out of bounds. -/
theorem perm_iter_out_of_bounds (v : List α) (it last : It) (n k : Nat) (hk : k < n) (hi : last.i = it.i + n) (h : pos it k < 0 ∨ (v.length : Int) ≤ pos it k) :
    (range v last).Visits it (.error .outOfBounds) := by
  have key : ∀ (k n : Nat) (it : It) (acc : List α), k < n → last.i = it.i + n → (pos it k < 0 ∨ (v.length : Int) ≤ pos it k) → Loop (range v last).body (it, acc) (.error .outOfBounds) := by
    intro k
    induction k with
    | zero =>
      intro n it acc hk hi h
      have hne : it.i ≠ last.i := by omega
      apply Loop.fault
      have : deref v it = .error .outOfBounds := at_error (by rwa [pos_zero] at h)
      simp [Iter.body, range, ne, hne, this]
    | succ k ih =>
      intro n it acc hk hi h
      have hne : it.i ≠ last.i := by omega
      cases hd : deref v it with
      | error f =>
        have hf : f = .outOfBounds := by
          unfold deref at' vget at hd
          split at hd
          · split at hd
            · cases hd
            · cases hd; rfl
          · cases hd; rfl
        subst hf
        apply Loop.fault
        simp [Iter.body, range, ne, hne, hd]
      | ok x =>
        refine Loop.step (s' := (next it, acc ++ [x])) ?_ (ih (n - 1) (next it) _ (by omega) ?_ ?_)
        · simp [Iter.body, range, ne, hne, hd]
        · show last.i = it.i + 1 + _
          omega
        · rwa [pos_next]
  exact key k n it [] hk hi h

/-- C141 needs the end to be reached by steps: with an end that is behind, or that has another base, the loop does not end, unless by an access out of bounds. -/
theorem perm_iter_endless (v : List α) (it last : It) (h : last.i < it.i ∨ last.base ≠ it.base) (xs : List α) : ¬ (range v last).Visits it (.ok xs) := by
  have key : ∀ (p : It × List α) (o : Res (List α)), Loop (range v last).body p o → (last.i < p.1.i ∨ last.base ≠ p.1.base) → ∀ xs, o ≠ .ok xs := by
    intro p o hl
    induction hl with
    | @done s r hb =>
      intro hI
      have hne : ne s.1 last = true := by
        unfold ne
        rcases hI with h | h
        · simp [show s.1.i ≠ last.i by omega]
        · simp [h.symm]
      cases hd : deref v s.1 <;> simp [Iter.body, range, hne, hd] at hb
    | fault hb => intro _ xs h; cases h
    | @step s s' o hb hl' ih =>
      intro hI
      have hne : ne s.1 last = true := by
        unfold ne
        rcases hI with h | h
        · simp [show s.1.i ≠ last.i by omega]
        · simp [h.symm]
      cases hd : deref v s.1 with
      | error f => simp [Iter.body, range, hne, hd] at hb
      | ok x =>
        simp [Iter.body, range, hne, hd] at hb
        subst hb
        refine ih ?_
        rcases hI with h | h
        · exact .inl (by show last.i < s.1.i + 1; omega)
        · exact .inr h
  exact fun hv => key _ _ hv h xs rfl

/-- The function permutes the numbers below `n`. -/
structure Permutes (perm : Int → Int) (n : Nat) : Prop where
  maps : ∀ k, 0 ≤ k → k < n → 0 ≤ perm k ∧ perm k < n
  inj : ∀ k l, 0 ≤ k → k < n → 0 ≤ l → l < n → perm k = perm l → k = l

/-- C141, permutations: going from 0 to `n` with a permutation of the numbers below `n`, the loop gives every one of the `n` elements from the base on once. -/
theorem perm_iter_permutes (v : List α) (perm : Int → Int) (b n : Nat) (hp : Permutes perm n) (hb : b + n ≤ v.length) :
    ∃ xs, (range v ⟨b, perm, n⟩).Visits ⟨b, perm, 0⟩ (.ok xs) ∧ xs.Perm ((v.drop b).take n) ∧ ∀ k, k < n → xs[k]? = v[b + (perm k).toNat]? := by
  have hpos : ∀ k, k < n → 0 ≤ perm k ∧ perm k < n := fun k hk => hp.maps k (by omega) (by omega)
  -- the order in which the positions come
  have hq : ((List.range n).map fun k : Nat => (perm k).toNat).Perm (List.range n) := by
    have hnd : ((List.range n).map fun k : Nat => (perm k).toNat).Nodup := by
      refine List.Nodup.map_on (fun k hk l hl h => ?_) List.nodup_range
      have hk := List.mem_range.1 hk
      have hl := List.mem_range.1 hl
      have := hpos k hk
      have := hpos l hl
      have := hp.inj k l (by omega) (by omega) (by omega) (by omega) (by omega)
      omega
    refine (List.subperm_of_subset hnd fun x hx => ?_).perm_of_length_le (by simp)
    obtain ⟨k, hk, rfl⟩ := List.mem_map.1 hx
    have := hpos k (List.mem_range.1 hk)
    exact List.mem_range.2 (by omega)
  have hlen : ((v.drop b).take n).length = n := by simp; omega
  have hs : (List.range n).filterMap (fun i => v[b + i]?) = (v.drop b).take n := by
    clear hq hpos hp hlen
    induction n with
    | zero => simp
    | succ n ih =>
      rw [List.range_succ, List.filterMap_append, ih (by omega), List.take_succ, List.getElem?_drop]
      have : b + n < v.length := by omega
      simp [List.getElem?_eq_getElem this]
  have hget : ∀ m k, m ≤ n → k < m → ((List.range m).filterMap fun k : Nat => v[b + (perm k).toNat]?)[k]? = v[b + (perm k).toNat]? ∧
      ((List.range m).filterMap fun k : Nat => v[b + (perm k).toNat]?).length = m := by
    have len : ∀ m, m ≤ n → ((List.range m).filterMap fun k : Nat => v[b + (perm k).toNat]?).length = m := by
      intro m
      induction m with
      | zero => intro _; rfl
      | succ m ih =>
        intro hm
        have := hpos m (by omega)
        have hlt : b + (perm m).toNat < v.length := by omega
        rw [List.range_succ, List.filterMap_append, List.length_append, ih (by omega)]
        simp [List.getElem?_eq_getElem hlt]
    intro m k hm hk
    refine ⟨?_, len m hm⟩
    induction m with
    | zero => omega
    | succ m ih =>
      have := hpos m (by omega)
      have hlt : b + (perm m).toNat < v.length := by omega
      have l := len m (by omega)
      rw [List.range_succ, List.filterMap_append]
      rcases Nat.lt_or_ge k m with h | h
      · rw [List.getElem?_append_left (by omega)]
        exact ih (by omega) h
      · have : k = m := by omega
        subst this
        rw [List.getElem?_append_right (by omega), l]
        simp [List.getElem?_eq_getElem hlt]
  have hxs : ((List.range n).filterMap fun k : Nat => v[b + (perm k).toNat]?).length = n := by
    rcases Nat.eq_zero_or_pos n with h | h
    · subst h; rfl
    · exact (hget n 0 (Nat.le_refl _) h).2
  refine ⟨(List.range n).filterMap fun k : Nat => v[b + (perm k).toNat]?, ?_, ?_, fun k hk => (hget n k (Nat.le_refl _) hk).1⟩
  · refine perm_iter_reads v _ _ _ rfl ?_ fun k x hx => ?_
    · show (n : Int) = 0 + _
      rw [hxs]; omega
    · have hk : k < n := by
        have := (List.getElem?_eq_some_iff.1 hx).1
        rwa [hxs] at this
      have := hpos k hk
      have e : pos (⟨b, perm, 0⟩ : It) k = b + perm k := by simp [pos]
      rw [e]
      refine ⟨by omega, ?_⟩
      rw [show ((b : Int) + perm k).toNat = b + (perm k).toNat by omega, ← (hget n k (Nat.le_refl _) hk).1]
      exact hx
  · rw [← hs]
    have := hq.filterMap fun i => v[b + i]?
    rw [List.filterMap_map] at this
    exact this

/-- C141, writing: copying to the iterator puts the values at the positions that the function gives, which are different and in the vector, and changes nothing else. -/
theorem perm_iter_writes (v : List α) (it : It) (xs : List α) (hin : ∀ k, k < xs.length → 0 ≤ pos it k ∧ pos it k < v.length)
    (hinj : ∀ k l, k < xs.length → l < xs.length → pos it k = pos it l → k = l) :
    ∃ v', copyTo v it xs = .ok (v', { it with i := it.i + xs.length }) ∧ v'.length = v.length ∧ (∀ k, k < xs.length → v'[(pos it k).toNat]? = xs[k]?) ∧
      ∀ p : Nat, (∀ k, k < xs.length → pos it k ≠ p) → v'[p]? = v[p]? := by
  obtain ⟨s, h1, h2, h3, h4, h5⟩ := foldlM_list_inv (l := xs) (s := (v, it)) (f := fun (s : List α × It) (x : α) => do
      let v ← store s.1 s.2 x
      return (v, next s.2))
    (fun pre s => s.2 = { it with i := it.i + pre.length } ∧ s.1.length = v.length ∧ (∀ k, k < pre.length → s.1[(pos it k).toNat]? = pre[k]?) ∧
      ∀ p : Nat, (∀ k, k < pre.length → pos it k ≠ p) → s.1[p]? = v[p]?)
    ⟨by simp, rfl, by simp, fun _ _ => rfl⟩ (by
      rintro pre x post hl ⟨w, it'⟩ ⟨i1, i2, i3, i4⟩
      dsimp only at i1 i2 i3 i4
      have hlt : pre.length < xs.length := by simp [hl]
      obtain ⟨p1, p2⟩ := hin pre.length hlt
      have hp : it'.base + it'.perm it'.i = pos it pre.length := by rw [i1]; rfl
      refine ⟨(w.set (pos it pre.length).toNat x, next it'), ?_, ?_, by simp [i2], fun k hk => ?_, fun p hp => ?_⟩
      · have : store w it' x = .ok (w.set (pos it pre.length).toNat x) := by
          unfold store
          dsimp only
          rw [hp, if_pos p1, vset_of_lt (by omega)]
        rw [this]; rfl
      · rw [i1]
        simp only [next, List.length_append, List.length_cons, List.length_nil]
        congr 1
        omega
      · simp only [List.length_append, List.length_cons, List.length_nil] at hk
        rcases Nat.lt_or_ge k pre.length with h | h
        · obtain ⟨q1, q2⟩ := hin k (by omega)
          have hne : (pos it pre.length).toNat ≠ (pos it k).toNat := fun e => by
            have := hinj pre.length k hlt (by omega) (by omega)
            omega
          rw [List.getElem?_set_ne hne, List.getElem?_append_left h]
          exact i3 k h
        · have : k = pre.length := by omega
          subst this
          rw [List.getElem?_set_self (by omega)]
          simp
      · have h1 := hp pre.length (by simp)
        have hne : (pos it pre.length).toNat ≠ p := fun e => h1 (by omega)
        rw [List.getElem?_set_ne hne]
        exact i4 p fun k hk => hp k (by simp; omega))
  refine ⟨s.1, ?_, h3, h4, h5⟩
  unfold copyTo
  rw [h1, ← h2]

/-! ## Examples -/

/-- The numbers below 4, backwards. -/
def exPerm : Int → Int := fun k => 3 - k

example : Permutes exPerm 4 := ⟨fun k h1 h2 => by unfold exPerm; omega, fun k l _ _ _ _ h => by unfold exPerm at h; omega⟩

example : (range [7, 8, 9, 10, 11] ⟨1, exPerm, 4⟩).Visits ⟨1, exPerm, 0⟩ (.ok [11, 10, 9, 8]) := Iter.visits_of_runFuel (n := 10) (by decide +kernel)

example : (∀ k, k < 3 → 0 ≤ pos ⟨1, exPerm, 1⟩ k ∧ pos ⟨1, exPerm, 1⟩ k < ([7, 8, 9, 10, 11] : List Nat).length) ∧
    ∀ k l, k < 3 → l < 3 → pos ⟨1, exPerm, 1⟩ k = pos ⟨1, exPerm, 1⟩ l → k = l := by
  refine ⟨fun k hk => ?_, fun k l _ _ h => ?_⟩
  · simp [pos, exPerm]; omega
  · simp [pos, exPerm] at h; omega

example : pos ⟨1, exPerm, 0⟩ 5 < 0 ∧ ¬ (range [7, 8, 9, 10, 11] ⟨0, exPerm, 4⟩).Visits ⟨1, exPerm, 0⟩ (.ok [11, 10, 9, 8]) :=
  ⟨by decide, perm_iter_endless _ _ _ (.inr (by decide)) _⟩

end NW.PermIter
