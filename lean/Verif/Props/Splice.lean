import Verif.Model.Splice
import Mathlib.Logic.Relation
import Mathlib.Data.Finset.Card

/-!
# C101, C102: `UnionBySplicing` and `getCompactDisjSets`

After `reset(i)` for every element the entries are parents, and a root is its own parent.
-/

namespace NW.Splice
open DisjointSet

/-! ## Specification -/

/-- Following the parents from `x` ends at the root `r`. -/
inductive Top (s : List Int) : Nat → Nat → Prop
  | root {r : Nat} (h : s[r]? = some (r : Int)) : Top s r r
  | up {x p r : Nat} (h : s[x]? = some (p : Int)) (hne : p ≠ x) (ht : Top s p r) : Top s x r

/-- Two elements are in the same set. -/
def Same (s : List Int) (x y : Nat) : Prop := ∃ r, Top s x r ∧ Top s y r

/-- The connections made by the calls. -/
def Linked (calls : List (Nat × Nat)) : Nat → Nat → Prop := Relation.EqvGen fun x y => (x, y) ∈ calls

/-! ## Proofs -/

/-- Every entry is a parent that is not smaller. -/
def Climb (s : List Int) : Prop := ∀ i, i < s.length → ∃ p : Nat, s[i]? = some (p : Int) ∧ i ≤ p ∧ p < s.length

theorem Top.det {s : List Int} {x r r' : Nat} (h : Top s x r) (h' : Top s x r') : r = r' := by
  induction h with
  | root h =>
    cases h' with
    | root => rfl
    | up h2 hne _ => rw [h] at h2; simp only [Option.some.injEq, Int.ofNat_inj] at h2; omega
  | up h hne _ ih =>
    cases h' with
    | root h2 => rw [h] at h2; simp only [Option.some.injEq, Int.ofNat_inj] at h2; omega
    | up h2 _ ht =>
      rw [h] at h2
      simp only [Option.some.injEq, Int.ofNat_inj] at h2
      subst h2
      exact ih ht

theorem Climb.top {s : List Int} (hs : Climb s) {x : Nat} (hx : x < s.length) : ∃ r, Top s x r := by
  induction hk : s.length - x using Nat.strongRecOn generalizing x with
  | _ k ih =>
    obtain ⟨p, h1, h2, h3⟩ := hs x hx
    by_cases he : p = x
    · subst he; exact ⟨p, .root h1⟩
    · obtain ⟨r, hr⟩ := ih (s.length - p) (by omega) h3 rfl
      exact ⟨r, .up h1 he hr⟩

theorem top_parent {s : List Int} {x p r : Nat} (h : s[x]? = some (p : Int)) : Top s p r → Top s x r := by
  intro ht
  by_cases he : p = x
  · subst he; exact ht
  · exact .up h he ht

theorem Same.parent {s : List Int} {x p y : Nat} (h : s[x]? = some (p : Int)) (hs : Same s p y) : Same s x y := by
  obtain ⟨r, h1, h2⟩ := hs
  exact ⟨r, top_parent h h1, h2⟩

theorem Same.symm {s : List Int} {x y : Nat} (h : Same s x y) : Same s y x := by
  obtain ⟨r, h1, h2⟩ := h
  exact ⟨r, h2, h1⟩

theorem Climb.self {s : List Int} (hs : Climb s) {x : Nat} (hx : x < s.length) : Same s x x := by
  obtain ⟨r, hr⟩ := hs.top hx
  exact ⟨r, hr, hr⟩

theorem Climb.set {s : List Int} (hs : Climb s) {v q : Nat} (hq : q < s.length) (hvq : v ≤ q) : Climb (s.set v (q : Int)) := by
  intro i hi
  rw [List.length_set] at hi ⊢
  rw [List.getElem?_set]
  by_cases e : v = i
  · subst e; exact ⟨q, by simp [hi], hvq, hq⟩
  · rw [if_neg e]; exact hs i hi

theorem ent_ok {s : List Int} {i p : Nat} (h : s[i]? = some (p : Int)) : ent s (i : Int) = .ok (p : Int) := by
  show vget s i = _
  unfold vget
  rw [h]

theorem put_ok {s : List Int} {i : Nat} (x : Int) (h : i < s.length) : put s (i : Int) x = .ok (s.set i x) := by
  show vset s i x = _
  exact vset_of_lt h

/-- What the loop does from any state. -/
structure Spliced (s : List Int) (v u : Nat) (s' : List Int) : Prop where
  len : s'.length = s.length
  climb : Climb s'
  frame1 : ∀ x, x < v → x ≠ u → s'[x]? = s[x]?
  frame2 : ∀ x, x < u → x ≠ v → s'[x]? = s[x]?
  same : Same s' v u
  sound : ∀ E : Nat → Nat → Prop, Equivalence E → E v u → (∀ i p : Nat, s[i]? = some (p : Int) → E i p) → ∀ i p : Nat, s'[i]? = some (p : Int) → E i p

theorem splice_loop (k : Nat) : ∀ (s : List Int) (v u : Nat), Climb s → v < s.length → u < s.length → 2 * s.length - v - u ≤ k →
    ∃ s', Loop spliceBody (s, (v : Int), (u : Int)) (.ok s') ∧ Spliced s v u s' := by
  induction k with
  | zero => intro s v u _ hv hu hk; omega
  | succ k ih =>
    intro s v u hs hv hu hk
    obtain ⟨a, a1, a2, a3⟩ := hs v hv
    obtain ⟨b, b1, b2, b3⟩ := hs u hu
    have hbody : spliceBody (s, (v : Int), (u : Int)) = (if (a : Int) = b then return .inr s
        else if (a : Int) < b then
          if (v : Int) = a then do
            let s ← put s v b
            return .inr s
          else do
            let s ← put s v b
            let v' ← ent s v
            return .inl (s, v', (u : Int))
        else
          if (u : Int) = b then do
            let s ← put s u a
            return .inr s
          else do
            let s ← put s u a
            let u' ← ent s u
            return .inl (s, (v : Int), u')) := by
      unfold spliceBody
      simp only [ent_ok a1, ent_ok b1, res_bind_ok]
    by_cases hab : a = b
    · refine ⟨s, Loop.done (by rw [hbody, if_pos (by rw [hab])]; rfl), rfl, hs, fun _ _ _ => rfl, fun _ _ _ => rfl, ?_, fun _ _ _ h => h⟩
      subst hab
      exact .parent a1 (.symm (.parent b1 (hs.self b3)))
    · have hvu : v ≠ u := fun e => hab (by subst e; rw [a1] at b1; simpa only [Option.some.injEq, Int.ofNat_inj] using b1)
      by_cases hlt : a < b
      · have h1 : s.set v (b : Int) = s.set v (b : Int) := rfl
        have hs1 : Climb (s.set v (b : Int)) := hs.set b3 (by omega)
        have hb1 : (s.set v (b : Int))[v]? = some (b : Int) := by simp [hv]
        have hu1 : (s.set v (b : Int))[u]? = some (b : Int) := by rw [List.getElem?_set_ne hvu]; exact b1
        have hsound : ∀ E : Nat → Nat → Prop, Equivalence E → E v u → (∀ i p : Nat, s[i]? = some (p : Int) → E i p) → ∀ i p : Nat, (s.set v (b : Int))[i]? = some (p : Int) → E i p := by
          intro E hE hvu' he i p hip
          rw [List.getElem?_set] at hip
          split at hip
          · rename_i e
            subst e
            simp only [Option.some.injEq, Int.ofNat_inj] at hip
            subst hip
            exact hE.trans hvu' (he u b b1)
          · exact he i p hip
        by_cases hroot : v = a
        · refine ⟨s.set v (b : Int), Loop.done ?_, by simp, hs1, ?_, ?_, ?_, hsound⟩
          · rw [hbody, if_neg (by omega), if_pos (by omega), if_pos (by omega), put_ok _ hv]
            rfl
          · intro x hx _; rw [List.getElem?_set_ne (by omega)]
          · intro x _ hx; rw [List.getElem?_set_ne (fun h => hx h.symm)]
          · exact .parent hb1 (.symm (.parent hu1 (hs1.self (by simpa using b3))))
        · obtain ⟨s', l1, l2⟩ := ih (s.set v (b : Int)) b u hs1 (by simpa using b3) (by simpa using hu) (by rw [List.length_set]; omega)
          refine ⟨s', Loop.step ?_ l1, ?_⟩
          · rw [hbody, if_neg (by omega), if_pos (by omega), if_neg (by omega), put_ok _ hv, res_bind_ok, ent_ok hb1]
            rfl
          · have hf : s'[v]? = some (b : Int) := by rw [l2.frame1 v (by omega) hvu]; exact hb1
            refine ⟨by rw [l2.len]; simp, l2.climb, ?_, ?_, .parent hf l2.same, ?_⟩
            · intro x hx hxu
              rw [l2.frame1 x (by omega) hxu, List.getElem?_set_ne (by omega)]
            · intro x hx hxv
              rw [l2.frame2 x hx (by omega), List.getElem?_set_ne (fun h => hxv h.symm)]
            · intro E hE hvu' he
              exact l2.sound E hE (hE.symm (he u b b1)) (hsound E hE hvu' he)
      · have hlt' : b < a := by omega
        have hs1 : Climb (s.set u (a : Int)) := hs.set a3 (by omega)
        have ha1 : (s.set u (a : Int))[u]? = some (a : Int) := by simp [hu]
        have hv1 : (s.set u (a : Int))[v]? = some (a : Int) := by rw [List.getElem?_set_ne hvu.symm]; exact a1
        have hsound : ∀ E : Nat → Nat → Prop, Equivalence E → E v u → (∀ i p : Nat, s[i]? = some (p : Int) → E i p) → ∀ i p : Nat, (s.set u (a : Int))[i]? = some (p : Int) → E i p := by
          intro E hE hvu' he i p hip
          rw [List.getElem?_set] at hip
          split at hip
          · rename_i e
            subst e
            simp only [Option.some.injEq, Int.ofNat_inj] at hip
            subst hip
            exact hE.trans (hE.symm hvu') (he v a a1)
          · exact he i p hip
        by_cases hroot : u = b
        · refine ⟨s.set u (a : Int), Loop.done ?_, by simp, hs1, ?_, ?_, ?_, hsound⟩
          · rw [hbody, if_neg (by omega), if_neg (by omega), if_pos (by omega), put_ok _ hu]
            rfl
          · intro x _ hx; rw [List.getElem?_set_ne (fun h => hx h.symm)]
          · intro x hx _; rw [List.getElem?_set_ne (by omega)]
          · exact .parent hv1 (.symm (.parent ha1 (hs1.self (by simpa using a3))))
        · obtain ⟨s', l1, l2⟩ := ih (s.set u (a : Int)) v a hs1 (by simpa using hv) (by simpa using a3) (by rw [List.length_set]; omega)
          refine ⟨s', Loop.step ?_ l1, ?_⟩
          · rw [hbody, if_neg (by omega), if_neg (by omega), if_neg (by omega), put_ok _ hu, res_bind_ok, ent_ok ha1]
            rfl
          · have hf : s'[u]? = some (a : Int) := by rw [l2.frame2 u (by omega) hvu.symm]; exact ha1
            refine ⟨by rw [l2.len]; simp, l2.climb, ?_, ?_, .symm (.parent hf l2.same.symm), ?_⟩
            · intro x hx hxu
              rw [l2.frame1 x hx (by omega), List.getElem?_set_ne (fun h => hxu h.symm)]
            · intro x hx hxv
              rw [l2.frame2 x (by omega) hxv, List.getElem?_set_ne (by omega)]
            · intro E hE hvu' he
              exact l2.sound E hE (he v a a1) (hsound E hE hvu' he)

/-- The elements as `reset(i)` for every `i` leaves them. -/
def fresh (n : Nat) : DSet := ⟨(List.range n).map fun i : Nat => (i : Int), n⟩

/-- `reset(i)` for `i` from 0 on makes every element its own parent. -/
theorem reset_all (n : Nat) : (List.range n).foldlM (fun d i => do
      match ← resetAt d (i : Int) with
      | some d => return d
      | none => .error .terminated) (create n) = .ok (fresh n) := by
  have : ∀ m, m ≤ n → (List.range m).foldlM (fun d i => do
      match ← resetAt d (i : Int) with
      | some d => return d
      | none => .error .terminated) (create n) = .ok (⟨((List.range m).map fun i : Nat => (i : Int)) ++ List.replicate (n - m) (-1), n⟩ : DSet) := by
    intro m hm
    induction m with
    | zero => simp [create, pure, Except.pure]
    | succ m ih =>
      rw [List.range_succ, List.foldlM_append, ih (by omega), res_bind_ok]
      simp only [List.foldlM_cons, List.foldlM_nil]
      have hl : (((List.range m).map fun i : Nat => (i : Int)) ++ List.replicate (n - m) (-1)).length = n := by simp; omega
      have hb : badIndex ⟨((List.range m).map fun i : Nat => (i : Int)) ++ List.replicate (n - m) (-1), n⟩ (m : Int) = false := by
        unfold badIndex
        simp only [hl, Bool.or_eq_false_iff, decide_eq_false_iff_not]
        omega
      unfold resetAt
      rw [hb]
      simp only [Bool.false_eq_true, ↓reduceIte]
      rw [put_ok _ (by rw [hl]; omega)]
      simp only [res_bind_ok, pure, Except.pure, Except.ok.injEq, DSet.mk.injEq, and_true]
      rw [List.set_append_right _ _ (by simp)]
      obtain ⟨j, hj⟩ : ∃ j, n - m = j + 1 := ⟨n - m - 1, by omega⟩
      rw [hj, show n - (m + 1) = j by omega]
      simp [List.replicate_succ]
  rw [this n (Nat.le_refl n)]
  simp [fresh]

theorem fresh_climb (n : Nat) : Climb (fresh n).sets := by
  intro i hi
  simp only [fresh, List.length_map, List.length_range] at hi
  exact ⟨i, by simp [fresh, hi], Nat.le_refl i, by simpa [fresh] using hi⟩

theorem gives_ok {σ ρ : Type} {body : σ → Res (σ ⊕ ρ)} {s : σ} {r : ρ} (h : Loop body s (.ok r)) : Run.Gives (Run.loop body s) (· = r) :=
  ⟨⟨_, h⟩, fun _ ho => ⟨r, Loop.det ho h, rfl⟩⟩

theorem union_gives {d : DSet} (hs : Climb d.sets) {v u : Nat} (hv : v < d.sets.length) (hu : u < d.sets.length) :
    Run.Gives (unionBySplicing d (v : Int) (u : Int)) fun d' => Spliced d.sets v u d'.sets ∧ d'.nsets = d.nsets := by
  obtain ⟨s', h1, h2⟩ := splice_loop _ d.sets v u hs hv hu (Nat.le_refl _)
  unfold unionBySplicing
  refine (gives_ok h1).bind ?_
  rintro _ rfl
  exact Run.gives_pure ⟨h2, rfl⟩

/-- What is kept by calls of `UnionBySplicing`. -/
structure Reached (n : Nat) (calls : List (Nat × Nat)) (d : DSet) : Prop where
  len : d.sets.length = n
  climb : Climb d.sets
  linked : ∀ i p : Nat, d.sets[i]? = some (p : Int) → Linked calls i p
  last : ∀ pre c, calls = pre ++ [c] → Same d.sets c.1 c.2

theorem Linked.equivalence (calls : List (Nat × Nat)) : Equivalence (Linked calls) := ⟨fun x => .refl x, fun h => .symm _ _ h, fun h h' => .trans _ _ _ h h'⟩

theorem unions_reached (n : Nat) (calls : List (Nat × Nat)) (hc : ∀ c ∈ calls, c.1 < n ∧ c.2 < n) : Run.Gives (unions (fresh n) calls) (Reached n calls) := by
  unfold unions
  refine Run.gives_foldlM (fun pre d => Reached n pre d) ⟨by simp [fresh], fresh_climb n, ?_, ?_⟩ ?_
  · intro i p h
    have hi : i < n := by
      have := (List.getElem?_eq_some_iff.1 h).1
      simpa [fresh] using this
    have h : (i : Int) = p := by simpa [fresh, hi] using h
    have h : i = p := by omega
    subst h
    exact .refl _
  · intro pre c h
    simp at h
  · rintro pre c post hl d hd
    obtain ⟨h1, h2⟩ := hc c (by rw [hl]; simp)
    refine (union_gives hd.climb (by rw [hd.len]; exact h1) (by rw [hd.len]; exact h2)).mono ?_
    rintro d' ⟨hs, -⟩
    refine ⟨hs.len.trans hd.len, hs.climb, hs.sound _ (Linked.equivalence _) (.rel _ _ (by simp)) ?_, ?_⟩
    · intro i p h
      exact (hd.linked i p h).mono fun x y hxy => List.mem_append_left _ hxy
    · intro pre' c' h
      obtain ⟨-, h'⟩ := List.append_inj' h rfl
      simp only [List.cons.injEq, and_true] at h'
      subst h'
      exact hs.same

theorem top_linked {E : Nat → Nat → Prop} (hE : Equivalence E) {s : List Int} (h : ∀ i p : Nat, s[i]? = some (p : Int) → E i p) {x r : Nat} (ht : Top s x r) : E x r := by
  induction ht with
  | root _ => exact hE.refl _
  | up hp _ _ ih => exact hE.trans (h _ _ hp) ih

/-- C101 (what holds).  Missing: elements connected by the calls are in the same set (refuted below).
From singletons, every sequence of calls of `UnionBySplicing` with elements of the range ends without a fault; following parents from any element then ends at a root, elements that are in the same set are
connected by the calls, and the two elements of the last call are in the same set. -/
theorem union_by_splicing_partial (n : Nat) (calls : List (Nat × Nat)) (hc : ∀ c ∈ calls, c.1 < n ∧ c.2 < n) :
    Run.Gives (unions (fresh n) calls) fun d => d.sets.length = n ∧ (∀ x, x < n → ∃ r, Top d.sets x r) ∧ (∀ x y, Same d.sets x y → Linked calls x y) ∧
      ∀ pre c, calls = pre ++ [c] → Same d.sets c.1 c.2 := by
  refine (unions_reached n calls hc).mono ?_
  intro d hd
  refine ⟨hd.len, fun x hx => hd.climb.top (by rw [hd.len]; exact hx), ?_, hd.last⟩
  rintro x y ⟨r, h1, h2⟩
  have hE := Linked.equivalence calls
  exact hE.trans (top_linked hE hd.linked h1) (hE.symm (top_linked hE hd.linked h2))

/-- C101 is false: `UnionBySplicing(0, 1)` and then `UnionBySplicing(0, 2)` leave 1 on its own (the loop continues from the new parent of an element, not from its old one). -/
theorem union_by_splicing_splits : Run.Gives (unions (fresh 3) [(0, 1), (0, 2)]) fun d => d.sets = [2, 1, 2] ∧ Linked [(0, 1), (0, 2)] 0 1 ∧ ¬ Same d.sets 0 1 := by
  have hgive : ∀ (d d' : DSet) (v u : Int), Loop spliceBody (d.sets, v, u) (.ok d'.sets) → d'.nsets = d.nsets → Run.Gives (unionBySplicing d v u) (· = d') := by
    intro d d' v u h hn
    unfold unionBySplicing
    refine (gives_ok h).bind ?_
    rintro _ rfl
    exact Run.gives_pure (by cases d; cases d'; simp only [DSet.mk.injEq, true_and] at hn ⊢; exact hn.symm)
  have h1 : Run.Gives (unionBySplicing (fresh 3) 0 1) (· = (⟨[1, 1, 2], 3⟩ : DSet)) := hgive (fresh 3) ⟨[1, 1, 2], 3⟩ 0 1 (Loop.done (by rfl)) rfl
  have h2 : Run.Gives (unionBySplicing ⟨[1, 1, 2], 3⟩ 0 2) (· = (⟨[2, 1, 2], 3⟩ : DSet)) :=
    hgive ⟨[1, 1, 2], 3⟩ ⟨[2, 1, 2], 3⟩ 0 2 (Loop.step (s' := ([2, 1, 2], 2, 2)) (by rfl) (Loop.done (by rfl))) rfl
  simp only [unions, List.foldlM_cons, List.foldlM_nil]
  refine h1.bind ?_
  rintro _ rfl
  refine h2.bind ?_
  rintro _ rfl
  refine Run.gives_pure ⟨rfl, .rel _ _ (by simp), ?_⟩
  rintro ⟨r, h0, h1⟩
  have e0 : Top [2, 1, 2] 0 2 := .up (p := 2) rfl (by decide) (.root rfl)
  have e1 : Top [2, 1, 2] 1 1 := .root rfl
  have := h0.det e0
  have := h1.det e1
  omega

/-- If both elements are roots, the call puts the two sets together and leaves all others as they are: elements are in the same set afterwards exactly if they were before, or one was in the set of `v` and the
other in that of `u`. -/
theorem union_by_splicing_roots (d : DSet) {v u : Nat} (hv : d.sets[v]? = some (v : Int)) (hu : d.sets[u]? = some (u : Int)) :
    Run.Gives (unionBySplicing d (v : Int) (u : Int)) fun d' => ∀ x r, Top d.sets x r → Top d'.sets x (if r = v ∨ r = u then max v u else r) := by
  have hvl := (List.getElem?_eq_some_iff.1 hv).1
  have hul := (List.getElem?_eq_some_iff.1 hu).1
  have key : ∀ a b : Nat, a < b → d.sets[a]? = some (a : Int) → d.sets[b]? = some (b : Int) → ∀ x r, Top d.sets x r → Top (d.sets.set a (b : Int)) x (if r = a ∨ r = b then b else r) := by
    intro a b hab ha hb x r h
    have hal := (List.getElem?_eq_some_iff.1 ha).1
    have hb' : (d.sets.set a (b : Int))[b]? = some (b : Int) := by rw [List.getElem?_set_ne (by omega)]; exact hb
    have ha' : (d.sets.set a (b : Int))[a]? = some (b : Int) := by simp [hal]
    induction h with
    | @root r h =>
      by_cases h1 : r = a
      · subst h1
        simp only [true_or, ↓reduceIte]
        exact .up ha' (by omega) (.root hb')
      · by_cases h2 : r = b
        · subst h2
          simp only [or_true, ↓reduceIte]
          exact .root hb'
        · simp only [h1, h2, or_self, ↓reduceIte]
          exact .root (by rw [List.getElem?_set_ne (fun e => h1 e.symm)]; exact h)
    | @up x p r h hne _ ih =>
      by_cases h1 : x = a
      · subst h1
        rw [ha] at h
        simp only [Option.some.injEq, Int.ofNat_inj] at h
        omega
      · exact .up (by rw [List.getElem?_set_ne (fun e => h1 e.symm)]; exact h) hne ih
  unfold unionBySplicing
  have hbody : spliceBody (d.sets, (v : Int), (u : Int)) = (if (v : Int) = u then return .inr d.sets
      else if (v : Int) < u then do
          let s ← put d.sets v u
          return .inr s
      else do
          let s ← put d.sets u v
          return .inr s) := by
    unfold spliceBody
    simp only [ent_ok hv, ent_ok hu, res_bind_ok, ↓reduceIte]
  rcases Nat.lt_trichotomy v u with h | h | h
  · have hl : Loop spliceBody (d.sets, (v : Int), (u : Int)) (.ok (d.sets.set v (u : Int))) :=
      Loop.done (by rw [hbody, if_neg (by omega), if_pos (by omega), put_ok _ hvl]; rfl)
    refine (gives_ok hl).bind ?_
    rintro _ rfl
    refine Run.gives_pure fun x r hr => ?_
    rw [Nat.max_eq_right (by omega)]
    exact key v u h hv hu x r hr
  · subst h
    have hl : Loop spliceBody (d.sets, (v : Int), (v : Int)) (.ok d.sets) := Loop.done (by rw [hbody, if_pos rfl]; rfl)
    refine (gives_ok hl).bind ?_
    rintro _ rfl
    refine Run.gives_pure fun x r hr => ?_
    rw [Nat.max_self]
    by_cases e : r = v
    · subst e; simpa using hr
    · simpa [e] using hr
  · have hl : Loop spliceBody (d.sets, (v : Int), (u : Int)) (.ok (d.sets.set u (v : Int))) :=
      Loop.done (by rw [hbody, if_neg (by omega), if_neg (by omega), put_ok _ hul]; rfl)
    refine (gives_ok hl).bind ?_
    rintro _ rfl
    refine Run.gives_pure fun x r hr => ?_
    rw [Nat.max_eq_left (by omega)]
    have := key u v h hu hv x r hr
    simpa [or_comm] using this

/-- The check of the argument of `reset` lets one position too many pass: `reset(n)` writes past the end of the array. -/
theorem reset_past_end (n : Nat) : resetAt (create n) (n : Int) = .error .outOfBounds := by
  unfold resetAt badIndex
  have hl : ((create n).sets.length : Int) = n := by simp [create]
  rw [hl]
  have : (decide ((n : Int) > n) || decide ((n : Int) < 0)) = false := by
    simp only [Bool.or_eq_false_iff, decide_eq_false_iff_not]
    omega
  rw [this]
  simp only [Bool.false_eq_true, ↓reduceIte]
  show (vset (create n).sets n (n : Int) >>= _) = _
  unfold vset
  rw [if_neg (by simp [create])]
  rfl

/-! ## `getCompactDisjSets` -/

/-- The state of the loop that fills the map after the entries `l`. -/
structure Map (l : List Int) (st : List (Int × Int) × Int) : Prop where
  keys : ∀ x, x ∈ l ↔ x ∈ st.1.map Prod.fst
  nodup : (st.1.map Prod.fst).Nodup
  vals : ∀ i (h : i < st.1.length), st.1[i].2 = (i : Int) + 1
  next : st.2 = (st.1.length : Int) + 1

theorem Map.step {l : List Int} {st : List (Int × Int) × Int} (h : Map l st) (x : Int) : Map (l ++ [x]) (insertLabel st x) := by
  unfold insertLabel
  split
  · rename_i ha
    have hx : x ∈ st.1.map Prod.fst := by
      obtain ⟨e, he, hex⟩ := List.any_eq_true.1 ha
      exact List.mem_map.2 ⟨e, he, by simpa using hex⟩
    refine ⟨fun y => ?_, h.nodup, h.vals, h.next⟩
    rw [List.mem_append, List.mem_singleton]
    constructor
    · rintro (hy | rfl)
      · exact (h.keys y).1 hy
      · exact hx
    · exact fun hy => Or.inl ((h.keys y).2 hy)
  · rename_i ha
    have hx : x ∉ st.1.map Prod.fst := by
      intro hm
      obtain ⟨e, he, hex⟩ := List.mem_map.1 hm
      exact ha (List.any_eq_true.2 ⟨e, he, by simpa using hex⟩)
    refine ⟨fun y => ?_, ?_, fun i hi => ?_, ?_⟩
    · rw [List.mem_append, List.mem_singleton, List.map_append, List.mem_append, h.keys y]
      simp
    · rw [List.map_append, List.nodup_append]
      refine ⟨h.nodup, by simp, ?_⟩
      intro a ha' b hb
      simp only [List.map_cons, List.map_nil, List.mem_singleton] at hb
      subst hb
      exact fun e => hx (e ▸ ha')
    · simp only [List.length_append, List.length_cons, List.length_nil] at hi
      rcases Nat.lt_or_ge i st.1.length with hlt | hge
      · rw [List.getElem_append_left hlt]; exact h.vals i hlt
      · have : i = st.1.length := by omega
        subst this
        simp [h.next]
    · simp [h.next]

theorem map_fold (l : List Int) : Map l (l.foldl insertLabel ([], 1)) := by
  have : ∀ l l' : List Int, ∀ st, Map l' st → Map (l' ++ l) (l.foldl insertLabel st) := by
    intro l
    induction l with
    | nil => intro l' st h; simpa using h
    | cons x l ih =>
      intro l' st h
      rw [List.foldl_cons, show l' ++ x :: l = (l' ++ [x]) ++ l by simp]
      exact ih _ _ (h.step x)
  exact this l [] ([], 1) ⟨by simp, by simp, by simp, by simp⟩

theorem Map.lookup {l : List Int} {st : List (Int × Int) × Int} (h : Map l st) {i : Nat} (hi : i < st.1.length) : lookup st.1 st.1[i].1 = (i : Int) + 1 := by
  unfold Splice.lookup
  have : st.1.find? (fun e => decide (e.1 = st.1[i].1)) = some st.1[i] := by
    rw [List.find?_eq_some_iff_getElem]
    refine ⟨by simp, i, hi, rfl, fun j hj => ?_⟩
    simp only [Bool.not_eq_true', decide_eq_false_iff_not]
    intro e
    have hn := h.nodup
    rw [List.nodup_iff_injective_get] at hn
    have := @hn ⟨j, by simp; omega⟩ ⟨i, by simpa using hi⟩ (by simpa using e)
    simp only [Fin.mk.injEq] at this
    omega
  rw [this, Option.map_some, Option.getD_some, h.vals i hi]

/-- C102, `getCompactDisjSets()`: two elements get the same label exactly if their entries are equal; the labels are the numbers from 1 to the number of different entries, and each of them is used. -/
theorem compact_correct (d : DSet) :
    (compact d).length = d.sets.length ∧
    (∀ i j, i < d.sets.length → j < d.sets.length → ((compact d)[i]? = (compact d)[j]? ↔ d.sets[i]? = d.sets[j]?)) ∧
    ∀ c : Int, c ∈ compact d ↔ 1 ≤ c ∧ c ≤ d.sets.toFinset.card := by
  have hm := map_fold d.sets
  set st := d.sets.foldl insertLabel ([], 1) with hst
  have hc : compact d = d.sets.map (lookup st.1) := rfl
  have hlab : ∀ x ∈ d.sets, ∃ i, ∃ h : i < st.1.length, st.1[i].1 = x ∧ lookup st.1 x = (i : Int) + 1 := by
    intro x hx
    obtain ⟨e, he, hex⟩ := List.mem_map.1 ((hm.keys x).1 hx)
    obtain ⟨i, hi, hie⟩ := List.getElem_of_mem he
    refine ⟨i, hi, by rw [hie, hex], ?_⟩
    rw [← hex, ← hie]
    exact hm.lookup hi
  have hinj : ∀ x ∈ d.sets, ∀ y ∈ d.sets, lookup st.1 x = lookup st.1 y → x = y := by
    intro x hx y hy h
    obtain ⟨i, hi, hix, hil⟩ := hlab x hx
    obtain ⟨j, hj, hjx, hjl⟩ := hlab y hy
    have : i = j := by omega
    subst this
    rw [← hix, ← hjx]
  have hcard : d.sets.toFinset.card = st.1.length := by
    have : d.sets.toFinset = (st.1.map Prod.fst).toFinset := by
      ext x
      rw [List.mem_toFinset, List.mem_toFinset]
      exact hm.keys x
    rw [this, List.toFinset_card_of_nodup hm.nodup, List.length_map]
  refine ⟨by rw [hc, List.length_map], ?_, ?_⟩
  · intro i j hi hj
    rw [hc, List.getElem?_map, List.getElem?_map, List.getElem?_eq_getElem hi, List.getElem?_eq_getElem hj]
    simp only [Option.map_some, Option.some.injEq]
    exact ⟨hinj _ (List.getElem_mem hi) _ (List.getElem_mem hj), fun h => by rw [h]⟩
  · intro c
    rw [hc, List.mem_map, hcard]
    constructor
    · rintro ⟨x, hx, rfl⟩
      obtain ⟨i, hi, -, hil⟩ := hlab x hx
      omega
    · rintro ⟨h1, h2⟩
      obtain ⟨i, rfl⟩ : ∃ i : Nat, c = (i : Int) + 1 := ⟨(c - 1).toNat, by omega⟩
      have hi : i < st.1.length := by omega
      exact ⟨st.1[i].1, (hm.keys _).2 (List.mem_map_of_mem (List.getElem_mem hi)), hm.lookup hi⟩

example : compact ⟨[4, 2, 4, 7, 2, 4], 6⟩ = [1, 2, 1, 3, 2, 1] := by decide

example : ∀ c ∈ [(0, 1), (2, 3), (1, 3)], c.1 < 4 ∧ c.2 < 4 := by decide

/-- Roots as in `union_by_splicing_roots`. -/
example : ([1, 1, 3, 3] : List Int)[1]? = some ((1 : Nat) : Int) ∧ ([1, 1, 3, 3] : List Int)[3]? = some ((3 : Nat) : Int) ∧ Top [1, 1, 3, 3] 0 1 :=
  ⟨rfl, rfl, .up (p := 1) rfl (by decide) (.root rfl)⟩

end NW.Splice
