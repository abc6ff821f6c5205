import Verif.Model.DisjointSet
import Verif.Lemmas.Dsu
import Mathlib.Data.Finset.Card
import Mathlib.Data.Finset.Range
import Mathlib.Data.Finset.Filter

/-! # Properties C39 and C65: the class `disjoint_set` -/

namespace NW.DisjointSet
open NW.Dsu (getElem?_set_ite)

/-- `r` is the root above `x`: following non-negative entries from `x` leads to `r`, whose entry is negative. -/
inductive Root (s : List Int) : Nat → Nat → Prop
  | root {r k : Nat} (h : s[r]? = some (Int.negSucc k)) : Root s r r
  | up {x p r : Nat} (h : s[x]? = some (p : Int)) (hr : Root s p r) : Root s x r

/-- Every element has a root. -/
def Valid (s : List Int) : Prop := ∀ x, x < s.length → ∃ r, Root s x r

theorem Root.det {s : List Int} {x r r' : Nat} (h : Root s x r) (h' : Root s x r') : r = r' := by
  induction h with
  | root h =>
    cases h' with
    | root _ => rfl
    | up h' _ => rw [h] at h'; cases h'
  | up h _ ih =>
    cases h' with
    | root h' => rw [h] at h'; cases h'
    | up h' hr' => rw [h] at h'; cases h'; exact ih hr'

theorem Root.isRoot {s : List Int} {x r : Nat} (h : Root s x r) : ∃ k, s[r]? = some (Int.negSucc k) := by
  induction h with
  | root h => exact ⟨_, h⟩
  | up _ _ ih => exact ih

theorem Root.lt {s : List Int} {x r : Nat} (h : Root s x r) : x < s.length := by
  cases h with
  | root h => exact (List.getElem?_eq_some_iff.1 h).1
  | up h => exact (List.getElem?_eq_some_iff.1 h).1

theorem badIndex_false {d : DSet} {x : Nat} (h : x < d.sets.length) : badIndex d (x : Int) = false := by
  unfold badIndex; simp; omega

theorem vget_of_some {α : Type} {l : List α} {i : Nat} {a : α} (h : l[i]? = some a) : vget l i = .ok a := by
  rw [vget_eq_ok]; exact h

theorem findLoop {s : List Int} {t r : Nat} (h : Root s t r) : Run.Gives (Run.loop (findBody s) t) (· = r) := by
  have : Loop (findBody s) t (.ok r) := by
    induction h with
    | root h => exact .done (by unfold findBody; rw [vget_of_some h]; rfl)
    | up h _ ih => exact .step (by unfold findBody; rw [vget_of_some h]; rfl) ih
  exact ⟨⟨_, this⟩, fun o ho => ⟨r, Loop.det ho this, rfl⟩⟩

/-- C39 fails: whatever the argument, `find` returns the root of element 0. -/
theorem find_is_root_of_zero (d : DSet) (x : Nat) (hx : x < d.sets.length) (r0 : Nat) (h0 : Root d.sets 0 r0) :
    Run.Gives (find d (x : Int)) (· = some r0) := by
  unfold find
  rw [badIndex_false hx]
  simp only [Bool.false_eq_true, if_false]
  exact (findLoop h0).bind fun t ht => Run.gives_pure (by rw [ht])

/-- C39, restricted to the elements for which it holds: `find` returns the root of its argument if that is in the set of element 0.
Missing: all the other elements, for which `find_is_root_of_zero` gives a wrong result. -/
theorem find_partial (d : DSet) (x r : Nat) (h : Root d.sets x r) (h0 : Root d.sets 0 r) :
    Run.Gives (find d (x : Int)) (· = some r) := find_is_root_of_zero d x h.lt r h0

/-- C39 fails for every element outside the set of element 0. -/
theorem find_wrong (d : DSet) (x r r0 : Nat) (h : Root d.sets x r) (h0 : Root d.sets 0 r0) (hne : r ≠ r0) :
    ¬ ∃ o, find d (x : Int) o ∧ o = .ok (some r) := by
  rintro ⟨o, ho, rfl⟩
  obtain ⟨a, ha, rfl⟩ := (find_is_root_of_zero d x h.lt r0 h0).2 _ ho
  cases ha
  exact hne rfl

/-- C39: in consequence the union operations never join anything. -/
theorem union_noop (combine : DSet → Nat → Nat → Res DSet) (d : DSet) (hv : Valid d.sets) (u v : Nat) (hu : u < d.sets.length) (hw : v < d.sets.length) :
    Run.Gives (union combine d (u : Int) (v : Int)) (· = some d) := by
  obtain ⟨r0, h0⟩ := hv 0 (by omega)
  unfold union
  refine (find_is_root_of_zero d u hu r0 h0).bind ?_
  rintro _ rfl
  simp only []
  refine (find_is_root_of_zero d v hw r0 h0).bind ?_
  rintro _ rfl
  simp only [ne_eq, not_true_eq_false, if_false]
  exact Run.gives_pure rfl

theorem valid_create (n : Nat) : Valid (create n).sets := by
  intro x hx
  unfold create at hx ⊢
  simp only [List.length_replicate] at hx
  exact ⟨x, .root (k := 0) (by rw [List.getElem?_replicate, if_pos hx]; rfl)⟩

/-- C39: from construction on, any sequence of unions leaves every element alone in its set. -/
theorem unions_never_join (n : Nat) (calls : List (Nat × Nat)) (hc : ∀ c ∈ calls, c.1 < n ∧ c.2 < n) :
    Run.Gives (calls.foldlM (fun d c => do
      match d with
      | none => return none
      | some d => union combineBySize d (c.1 : Int) (c.2 : Int)) (some (create n))) (· = some (create n)) := by
  refine Run.gives_foldlM (fun _ d => d = some (create n)) rfl ?_
  rintro pre c post hl _ rfl
  have := hc c (by rw [hl]; simp)
  simp only []
  exact union_noop _ _ (valid_create n) _ _ (by simpa [create] using this.1) (by simpa [create] using this.2)

/-! ## C65: `find_with_pathcompression` and the combination of roots -/

theorem shortcut {s : List Int} (hv : Valid s) {x r : Nat} (h : Root s x r) (hne : x ≠ r) :
    Valid (s.set x (r : Int)) ∧ ∀ y r', Root (s.set x (r : Int)) y r' ↔ Root s y r' := by
  have hlt := h.lt
  obtain ⟨k, hk⟩ := h.isRoot
  have hr : Root (s.set x (r : Int)) r r := .root (k := k) (by rw [getElem?_set_ite hlt, if_neg hne]; exact hk)
  have hxr : Root (s.set x (r : Int)) x r := .up (p := r) (by rw [getElem?_set_ite hlt, if_pos rfl]) hr
  have fwd : ∀ y r', Root s y r' → Root (s.set x (r : Int)) y r' := by
    intro y r' hy
    induction hy with
    | root h1 =>
      rename_i y k1
      by_cases c : x = y
      · subst c
        exact absurd ((Root.root h1).det h) hne
      · exact .root (k := k1) (by rw [getElem?_set_ite hlt, if_neg c]; exact h1)
    | up h1 hy ih =>
      rename_i y p1 r1
      by_cases c : x = y
      · subst c
        rw [(Root.up h1 hy).det h]; exact hxr
      · exact .up (p := p1) (by rw [getElem?_set_ite hlt, if_neg c]; exact h1) ih
  refine ⟨?_, fun y r' => ⟨?_, fwd y r'⟩⟩
  · intro y hy
    obtain ⟨r', hr'⟩ := hv y (by simpa using hy)
    exact ⟨r', fwd y r' hr'⟩
  · intro hy
    obtain ⟨r'', hr''⟩ := hv y (by have := hy.lt; simpa using this)
    rw [hy.det (fwd _ _ hr'')]; exact hr''

theorem climb {s : List Int} {x r : Nat} (h : Root s x r) (st : List Nat) :
    ∃ st', Loop (climbBody s) (st, x) (.ok (st', r)) ∧ (∀ y ∈ st', y ∈ st ∨ (Root s y r ∧ y ≠ r)) ∧ (∀ y ∈ st, y ∈ st') ∧ (x ≠ r → x ∈ st') := by
  induction h generalizing st with
  | root h =>
    exact ⟨st, .done (by unfold climbBody; simp only []; rw [vget_of_some h]; rfl), fun y hy => Or.inl hy, fun _ hy => hy, fun hne => absurd rfl hne⟩
  | up h hr ih =>
    rename_i x p r
    obtain ⟨st', h1, h2, h3, -⟩ := ih (x :: st)
    refine ⟨st', .step (by unfold climbBody; simp only []; rw [vget_of_some h]; rfl) h1, ?_, fun y hy => h3 y (by simp [hy]), fun _ => h3 x (by simp)⟩
    intro y hy
    rcases h2 y hy with hy | hy
    · rcases List.mem_cons.1 hy with rfl | hy
      · refine Or.inr ⟨.up h hr, ?_⟩
        rintro rfl
        obtain ⟨k, hk⟩ := hr.isRoot
        rw [h] at hk; cases hk
      · exact Or.inl hy
    · exact Or.inr hy

/-- C65.  `find_with_pathcompression(x)` returns the root of `x`, changes no set and no stored size or height, and makes `x` a direct child of its root. -/
theorem find_with_pathcompression_correct (d : DSet) (hv : Valid d.sets) (x r : Nat) (h : Root d.sets x r) :
    Run.Gives (findCompress d (x : Int)) fun o => o.2 = some r ∧ Valid o.1.sets ∧ o.1.nsets = d.nsets ∧ o.1.sets.length = d.sets.length ∧
      (∀ y r', Root o.1.sets y r' ↔ Root d.sets y r') ∧ (x ≠ r → o.1.sets[x]? = some (r : Int)) ∧ (∀ (r' k : Nat), d.sets[r']? = some (Int.negSucc k) → o.1.sets[r']? = some (Int.negSucc k)) := by
  unfold findCompress
  rw [badIndex_false h.lt]
  simp only [Bool.false_eq_true, if_false, Int.toNat_natCast]
  refine (Run.gives_lift (vget_of_lt h.lt) (Q := (· = d.sets[x]'h.lt)) rfl).bind ?_
  rintro _ rfl
  have hx : d.sets[x]? = some (d.sets[x]'h.lt) := List.getElem?_eq_getElem h.lt
  split
  · rename_i k hk
    rw [hk] at hx
    have := h.det (.root hx)
    subst this
    exact Run.gives_pure ⟨rfl, hv, rfl, rfl, fun _ _ => Iff.rfl, fun hne => absurd rfl hne, fun _ _ h => h⟩
  · rename_i p hp
    obtain ⟨st, h1, h2, -, h3⟩ := climb h []
    have hg : Run.Gives (Run.loop (climbBody d.sets) ([], x)) (· = (st, r)) := ⟨⟨_, h1⟩, fun o ho => ⟨_, Loop.det ho h1, rfl⟩⟩
    refine hg.bind ?_
    rintro _ rfl
    simp only []
    have hst : ∀ y ∈ st, Root d.sets y r ∧ y ≠ r := fun y hy => by
      rcases h2 y hy with h | h
      · simp at h
      · exact h
    obtain ⟨s', hs', hv', hl', hr', hset, hneg⟩ : ∃ s', st.foldlM (fun s x => vset s x (r : Int)) d.sets = .ok s' ∧ Valid s' ∧
        s'.length = d.sets.length ∧ (∀ y r', Root s' y r' ↔ Root d.sets y r') ∧ (∀ y ∈ st, s'[y]? = some (r : Int)) ∧
        (∀ (r' k : Nat), d.sets[r']? = some (Int.negSucc k) → s'[r']? = some (Int.negSucc k)) := by
      have aux : ∀ (st : List Nat) (s : List Int), Valid s → (∀ y ∈ st, Root s y r ∧ y ≠ r) →
          ∃ s', st.foldlM (fun s x => vset s x (r : Int)) s = .ok s' ∧ Valid s' ∧ s'.length = s.length ∧ (∀ y r', Root s' y r' ↔ Root s y r') ∧
            (∀ y, y ∈ st ∨ s[y]? = some (r : Int) → s'[y]? = some (r : Int)) ∧ (∀ (r' k : Nat), s[r']? = some (Int.negSucc k) → s'[r']? = some (Int.negSucc k)) := by
        intro st
        induction st with
        | nil => intro s hv _; exact ⟨s, rfl, hv, rfl, fun _ _ => Iff.rfl, fun y hy => by simpa using hy, fun _ _ h => h⟩
        | cons y st ih =>
          intro s hv hst
          obtain ⟨hy, hne⟩ := hst y (by simp)
          obtain ⟨a1, a2⟩ := shortcut hv hy hne
          obtain ⟨s', b1, b2, b3, b4, b5, b6⟩ := ih (s.set y (r : Int)) a1 fun z hz => ⟨(a2 _ _).2 (hst z (by simp [hz])).1, (hst z (by simp [hz])).2⟩
          refine ⟨s', ?_, b2, by rw [b3]; simp, fun a b => (b4 a b).trans (a2 a b), ?_, ?_⟩
          · rw [List.foldlM_cons, vset_of_lt hy.lt, res_bind_ok, b1]
          · intro z hz
            apply b5
            by_cases c : y = z
            · right; rw [getElem?_set_ite hy.lt, if_pos c]
            · rcases hz with hz | hz
              · rcases List.mem_cons.1 hz with e | hz
                · exact absurd e.symm c
                · exact Or.inl hz
              · right; rw [getElem?_set_ite hy.lt, if_neg c]; exact hz
          · intro r' k hk
            refine b6 r' k ?_
            rw [getElem?_set_ite hy.lt, if_neg]
            · exact hk
            · rintro rfl
              exact hne (Root.det (.root hk) hy)
      obtain ⟨s', c1, c2, c3, c4, c5, c6⟩ := aux st d.sets hv hst
      exact ⟨s', c1, c2, c3, c4, fun y hy => c5 y (Or.inl hy), c6⟩
    refine (Run.gives_lift hs' (Q := (· = s')) rfl).bind ?_
    rintro _ rfl
    exact Run.gives_pure ⟨rfl, hv', rfl, hl', hr', fun hne => hset x (h3 hne), hneg⟩

/-- The check of the argument lets `maxid_` pass, which is one past the last element. -/
theorem find_with_pathcompression_outOfBounds (d : DSet) : Run.Faults (findCompress d (d.sets.length : Int)) .outOfBounds := by
  unfold findCompress
  have : badIndex d (d.sets.length : Int) = false := by unfold badIndex; simp
  rw [this]
  simp only [Bool.false_eq_true, if_false, Int.toNat_natCast]
  exact (Run.faults_lift (vget_of_ge (Nat.le_refl _))).bind

open Classical in
/-- The elements of the set with root `r`. -/
noncomputable def members (s : List Int) (r : Nat) : Finset Nat := (Finset.range s.length).filter fun x => Root s x r

/-- Every root stores minus the number of elements of its set. -/
def Sized (s : List Int) : Prop := ∀ r k, s[r]? = some (Int.negSucc k) → (members s r).card = k + 1

theorem absorb {s s' : List Int} (hv : Valid s) {a b ka kb k : Nat} (ha : s[a]? = some (Int.negSucc ka)) (hb : s[b]? = some (Int.negSucc kb)) (hne : a ≠ b)
    (hl : s'.length = s.length) (hs' : ∀ x : Nat, s'[x]? = if x = b then some (a : Int) else if x = a then some (Int.negSucc k) else s[x]?) :
    Valid s' ∧ (∀ x r, Root s x r → Root s' x (if r = b then a else r)) ∧ (Sized s → k = ka + kb + 1 → Sized s') := by
  have haa : Root s' a a := .root (k := k) (by rw [hs', if_neg hne, if_pos rfl])
  have fwd : ∀ x r, Root s x r → Root s' x (if r = b then a else r) := by
    intro x r hx
    induction hx with
    | root h1 =>
      rename_i x k1
      by_cases c : x = b
      · subst c
        rw [if_pos rfl]
        exact .up (p := a) (by rw [hs', if_pos rfl]) haa
      · rw [if_neg c]
        by_cases e : x = a
        · subst e; exact haa
        · exact .root (k := k1) (by rw [hs', if_neg c, if_neg e]; exact h1)
    | up h1 hq ih =>
      rename_i x p1 r1
      have c : x ≠ b := by rintro rfl; rw [hb] at h1; cases h1
      have e : x ≠ a := by rintro rfl; rw [ha] at h1; cases h1
      exact .up (p := p1) (by rw [hs', if_neg c, if_neg e]; exact h1) ih
  refine ⟨?_, fwd, ?_⟩
  · intro x hx
    obtain ⟨r, hr⟩ := hv x (by omega)
    exact ⟨_, fwd x r hr⟩
  · intro hz hk r k' hr
    rw [hs'] at hr
    have back : ∀ x r', Root s' x r' → x < s.length → ∃ q, Root s x q ∧ r' = if q = b then a else q := by
      intro x r' hx hlt
      obtain ⟨q, hq⟩ := hv x hlt
      exact ⟨q, hq, hx.det (fwd x q hq)⟩
    split at hr
    · cases hr
    · rename_i hrb
      split at hr
      · rename_i e
        subst e
        cases hr
        classical
        have hu : members s' r = members s r ∪ members s b := by
          ext x
          unfold members
          simp only [Finset.mem_filter, Finset.mem_range, Finset.mem_union, hl]
          constructor
          · rintro ⟨h1, h2⟩
            obtain ⟨q, hq, he⟩ := back x r h2 h1
            split at he
            · rename_i e; subst e; exact Or.inr ⟨h1, hq⟩
            · subst he; exact Or.inl ⟨h1, hq⟩
          · rintro (⟨h1, h2⟩ | ⟨h1, h2⟩)
            · have := fwd x r h2; rw [if_neg hrb] at this; exact ⟨h1, this⟩
            · have := fwd x b h2; rw [if_pos rfl] at this; exact ⟨h1, this⟩
        have hd : Disjoint (members s r) (members s b) := by
          rw [Finset.disjoint_left]
          intro x h1 h2
          unfold members at h1 h2
          rw [Finset.mem_filter] at h1 h2
          exact hne (h1.2.det h2.2)
        rw [hu, Finset.card_union_of_disjoint hd, hz r ka ha, hz b kb hb]
        omega
      · rename_i hra
        rw [← hz r k' hr]
        congr 1
        ext x
        unfold members
        simp only [Finset.mem_filter, Finset.mem_range, hl]
        constructor
        · rintro ⟨h1, h2⟩
          obtain ⟨q, hq, he⟩ := back x r h2 h1
          split at he
          · exact absurd he hra
          · subst he; exact ⟨h1, hq⟩
        · rintro ⟨h1, h2⟩
          have := fwd x r h2
          rw [if_neg hrb] at this
          exact ⟨h1, this⟩

/-- C65.  Combining two different roots by size hangs the root of the smaller set under the other, puts exactly these two sets together and keeps
the stored sizes right. -/
theorem combineBySize_correct (d : DSet) (hv : Valid d.sets) (u v : Nat) (hu : Root d.sets u u) (hw : Root d.sets v v) (hne : u ≠ v) :
    ∃ d' a b, combineBySize d u v = .ok d' ∧ (a = u ∧ b = v ∨ a = v ∧ b = u) ∧
      (∀ ka kb, d.sets[a]? = some (Int.negSucc ka) → d.sets[b]? = some (Int.negSucc kb) → kb ≤ ka) ∧ Valid d'.sets ∧
      (∀ x r, Root d.sets x r → Root d'.sets x (if r = b then a else r)) ∧ (Sized d.sets → Sized d'.sets) := by
  obtain ⟨ku, hku⟩ := hu.isRoot
  obtain ⟨kv, hkv⟩ := hw.isRoot
  unfold combineBySize
  rw [vget_of_some hku, res_bind_ok, vget_of_some hkv, res_bind_ok]
  have c1 : check (decide (0 ≥ Int.negSucc ku)) = .ok () := by
    unfold check; rw [if_pos]; simp; omega
  have c2 : check (decide (0 ≥ Int.negSucc kv)) = .ok () := by
    unfold check; rw [if_pos]; simp; omega
  rw [c1, res_bind_ok, c2, res_bind_ok]
  have e1 : Int.negSucc ku + Int.negSucc kv = Int.negSucc (ku + kv + 1) := by omega
  have e2 : Int.negSucc kv + Int.negSucc ku = Int.negSucc (kv + ku + 1) := by omega
  split
  · rename_i hgt
    rw [vset_of_lt hw.lt, res_bind_ok, vset_of_lt (by simpa using hu.lt), res_bind_ok]
    obtain ⟨m1, m2, m3⟩ := absorb (s' := (d.sets.set v (Int.negSucc kv + Int.negSucc ku)).set u (v : Int)) (k := kv + ku + 1) hv hkv hku
      (fun e => hne e.symm) (by simp) (by
        intro x
        rw [getElem?_set_ite (by simpa using hu.lt), getElem?_set_ite hw.lt, e2]
        by_cases f1 : x = u
        · rw [if_pos f1.symm, if_pos f1]
        · rw [if_neg (fun h => f1 h.symm), if_neg f1]
          by_cases f2 : x = v
          · rw [if_pos f2.symm, if_pos f2]
          · rw [if_neg (fun h => f2 h.symm), if_neg f2])
    exact ⟨_, v, u, rfl, Or.inr ⟨rfl, rfl⟩, fun ka kb f g => by rw [hkv] at f; rw [hku] at g; cases f; cases g; omega, m1, m2, fun h => m3 h rfl⟩
  · rename_i hgt
    rw [vset_of_lt hu.lt, res_bind_ok, vset_of_lt (by simpa using hw.lt), res_bind_ok]
    obtain ⟨m1, m2, m3⟩ := absorb (s' := (d.sets.set u (Int.negSucc ku + Int.negSucc kv)).set v (u : Int)) (k := ku + kv + 1) hv hku hkv
      hne (by simp) (by
        intro x
        rw [getElem?_set_ite (by simpa using hw.lt), getElem?_set_ite hu.lt, e1]
        by_cases f1 : x = v
        · rw [if_pos f1.symm, if_pos f1]
        · rw [if_neg (fun h => f1 h.symm), if_neg f1]
          by_cases f2 : x = u
          · rw [if_pos f2.symm, if_pos f2]
          · rw [if_neg (fun h => f2 h.symm), if_neg f2])
    exact ⟨_, u, v, rfl, Or.inl ⟨rfl, rfl⟩, fun ka kb f g => by rw [hku] at f; rw [hkv] at g; cases f; cases g; omega, m1, m2, fun h => m3 h rfl⟩

/-- C65.  Combining two different roots by height hangs the root of smaller rank under the other, puts exactly these two sets together, and
raises the rank of the new root by one exactly when both ranks were the same. -/
theorem combineByHeight_correct (d : DSet) (hv : Valid d.sets) (v u : Nat) (hw : Root d.sets v v) (hu : Root d.sets u u) (hne : u ≠ v) :
    ∃ d' a b, combineByHeight d v u = .ok d' ∧ (a = u ∧ b = v ∨ a = v ∧ b = u) ∧
      (∀ ka kb, d.sets[a]? = some (Int.negSucc ka) → d.sets[b]? = some (Int.negSucc kb) → kb ≤ ka) ∧ Valid d'.sets ∧
      (∀ x r, Root d.sets x r → Root d'.sets x (if r = b then a else r)) ∧
      (∀ k, d.sets[u]? = some (Int.negSucc k) → d.sets[v]? = some (Int.negSucc k) → d'.sets[a]? = some (Int.negSucc (k + 1))) ∧
      (d.sets[u]? ≠ d.sets[v]? → d'.sets[a]? = d.sets[a]?) := by
  obtain ⟨ku, hku⟩ := hu.isRoot
  obtain ⟨kv, hkv⟩ := hw.isRoot
  unfold combineByHeight
  rw [vget_of_some hku, res_bind_ok, vget_of_some hkv, res_bind_ok]
  have c1 : check (decide (0 ≥ Int.negSucc ku)) = .ok () := by
    unfold check; rw [if_pos]; simp; omega
  have c2 : check (decide (0 ≥ Int.negSucc kv)) = .ok () := by
    unfold check; rw [if_pos]; simp; omega
  rw [c1, res_bind_ok, c2, res_bind_ok]
  split
  · rename_i hgt
    rw [vset_of_lt hw.lt, res_bind_ok]
    obtain ⟨m1, m2, -⟩ := absorb (s' := d.sets.set v (u : Int)) (k := ku) hv hku hkv hne (by simp) (by
        intro x
        rw [getElem?_set_ite hw.lt]
        by_cases f1 : x = v
        · rw [if_pos f1.symm, if_pos f1]
        · rw [if_neg (fun h => f1 h.symm), if_neg f1]
          by_cases f2 : x = u
          · rw [if_pos f2, f2]; exact hku
          · rw [if_neg f2])
    refine ⟨_, u, v, rfl, Or.inl ⟨rfl, rfl⟩, fun ka kb f g => by rw [hku] at f; rw [hkv] at g; cases f; cases g; omega, m1, m2, ?_, ?_⟩
    · intro k f g
      rw [hku] at f; rw [hkv] at g; cases f; cases g; omega
    · intro _
      show (d.sets.set v (u : Int))[u]? = _
      rw [getElem?_set_ite hw.lt, if_neg (fun h => hne h.symm)]
  · rename_i hgt
    obtain ⟨k, s1, hs1, hl1, hk1, hg1⟩ : ∃ (k : Nat) (s1 : List Int),
        raiseHeight d.sets v (Int.negSucc ku) (Int.negSucc kv) = .ok s1 ∧
        s1.length = d.sets.length ∧ (k = if ku = kv then kv + 1 else kv) ∧ ∀ x : Nat, s1[x]? = if x = v then some (Int.negSucc k) else d.sets[x]? := by
      unfold raiseHeight
      split
      · rename_i heq
        refine ⟨kv + 1, _, vset_of_lt hw.lt, by simp, by rw [if_pos (by omega)], ?_⟩
        intro x
        rw [getElem?_set_ite hw.lt, show Int.negSucc kv - 1 = Int.negSucc (kv + 1) by omega]
        by_cases f : x = v
        · rw [if_pos f, if_pos f.symm]
        · rw [if_neg f, if_neg (fun h => f h.symm)]
      · rename_i heq
        refine ⟨kv, _, rfl, rfl, by rw [if_neg (by omega)], ?_⟩
        intro x
        by_cases f : x = v
        · rw [if_pos f, f]; exact hkv
        · rw [if_neg f]
    rw [hs1, res_bind_ok, vset_of_lt (by rw [hl1]; exact hu.lt), res_bind_ok]
    obtain ⟨m1, m2, -⟩ := absorb (s' := s1.set u (v : Int)) (k := k) hv hkv hku (fun e => hne e.symm) (by simp [hl1]) (by
        intro x
        rw [getElem?_set_ite (by rw [hl1]; exact hu.lt), hg1]
        by_cases f1 : x = u
        · rw [if_pos f1.symm, if_pos f1]
        · rw [if_neg (fun h => f1 h.symm), if_neg f1])
    have hv1 : (s1.set u (v : Int))[v]? = some (Int.negSucc k) := by
      rw [getElem?_set_ite (by rw [hl1]; exact hu.lt), if_neg hne, hg1, if_pos rfl]
    refine ⟨_, v, u, rfl, Or.inr ⟨rfl, rfl⟩, fun ka kb f g => by rw [hkv] at f; rw [hku] at g; cases f; cases g; omega, m1, m2, ?_, ?_⟩
    · intro k' f g
      rw [hku] at f; rw [hkv] at g; cases f; cases g
      rw [if_pos rfl] at hk1
      subst hk1; exact hv1
    · intro hh
      rw [hku, hkv] at hh
      rw [if_neg (fun e => hh (by rw [e]))] at hk1
      subst hk1
      rw [hkv]; exact hv1

theorem sized_create (n : Nat) : Sized (create n).sets := by
  intro r k h
  unfold create at h
  rw [List.getElem?_replicate] at h
  split at h
  · rename_i hr
    cases h
    have : members (create n).sets r = {r} := by
      ext x
      unfold members
      simp only [Finset.mem_filter, Finset.mem_range, Finset.mem_singleton]
      constructor
      · rintro ⟨h1, h2⟩
        unfold create at h1 h2
        simp only [List.length_replicate] at h1
        exact (h2.det (.root (k := 0) (by rw [List.getElem?_replicate, if_pos h1]; rfl))).symm
      · rintro rfl
        unfold create
        simp only [List.length_replicate]
        exact ⟨hr, .root (k := 0) (by rw [List.getElem?_replicate, if_pos hr]; rfl)⟩
    rw [this]; rfl
  · cases h

/-- `getSetSize` does not return the size of a set. -/
theorem getSetSize_wrong (n : Nat) (x : Nat) (hx : x < n) : Run.Gives (getSetSize (create n) (x : Int)) (· = some 0) := by
  unfold getSetSize
  obtain ⟨r0, h0⟩ := valid_create n 0 (by simp [create]; omega)
  have : r0 = 0 := h0.det (.root (k := 0) (by unfold create; rw [List.getElem?_replicate, if_pos (by omega)]; rfl))
  subst this
  refine (find_is_root_of_zero _ x (by simpa [create] using hx) 0 h0).bind ?_
  rintro _ rfl
  exact Run.gives_pure rfl

/-! ## The hypotheses can be met: the sets {0, 1, 3} and {2} -/

def exD : DSet := ⟨[1, -3, -1, 0], 2⟩

theorem exD_root3 : Root exD.sets 3 1 := .up (p := 0) rfl (.up (p := 1) rfl (.root (k := 2) rfl))
theorem exD_root2 : Root exD.sets 2 2 := .root (k := 0) rfl
theorem exD_root1 : Root exD.sets 1 1 := .root (k := 2) rfl
theorem exD_root0 : Root exD.sets 0 1 := .up (p := 1) rfl exD_root1

theorem exD_valid : Valid exD.sets := by
  intro x hx
  have hx : x < 4 := hx
  rcases x with _ | _ | _ | _ | x
  · exact ⟨_, exD_root0⟩
  · exact ⟨_, exD_root1⟩
  · exact ⟨_, exD_root2⟩
  · exact ⟨_, exD_root3⟩
  · omega

/-- Element 2 is alone, but `find(2)` returns 1. -/
example : Run.Gives (find exD 2) (· = some 1) := find_is_root_of_zero exD 2 (by decide) 1 exD_root0
example : ¬ ∃ o, find exD 2 o ∧ o = .ok (some 2) := find_wrong exD 2 2 1 exD_root2 exD_root0 (by decide)
example : Run.Gives (find exD 3) (· = some 1) := find_partial exD 3 1 exD_root3 exD_root0

end NW.DisjointSet
