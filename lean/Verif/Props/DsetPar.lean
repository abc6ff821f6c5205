import Verif.Lemmas.DsetPar
import Mathlib.Tactic.IntervalCases

/-!
# C142: calls of `unionBySizeAtomic` by several threads

`Root s x r` (Props/DisjointSet): from `x` the entries lead to `r`, whose entry is negative.  `Same s x y` (Props/DsetOut): `x` and `y` lead to the same root.  `Conn (Pairs E)` (Spec/Components): connected by the pairs of `E`.
`St n E d` (Props/DsetOut): `d` has `n` elements, every one of them has a root, and two are in the same set exactly if `E` connects them.  `Sure` (Concur): whatever the scheduling, the program ends without a fault with a
result that has the property.
-/

namespace NW.DsetPar
open Spec DisjointSet DsetOut

/-! ## Specification -/

/-- The calls do not meet: no two of them have second arguments in the same set, the second argument of none is in the set of the first argument of another, and two have the same first argument only if it is not
less than their second ones. -/
def Apart (s : List Int) (calls : List (Nat × Nat)) : Prop :=
  ∀ (i j : Nat) (c c' : Nat × Nat) (r r' : Nat), i ≠ j → calls[i]? = some c → calls[j]? = some c' → Root s c.2 r → Root s c'.2 r' → r ≠ r' ∧ r ≠ c'.1 ∧ (c.1 = c'.1 → c.2 ≤ c.1)

/-! ## The initial state -/

/-- The number of entries between an element and its root. -/
inductive Depth (s : List Int) : Nat → Nat → Prop
  | root {r k : Nat} (h : s[r]? = some (Int.negSucc k)) : Depth s r 0
  | up {x p d : Nat} (h : s[x]? = some (p : Int)) (hd : Depth s p d) : Depth s x (d + 1)

theorem Depth.det {s : List Int} {x d d' : Nat} (h : Depth s x d) (h' : Depth s x d') : d = d' := by
  induction h generalizing d' with
  | root h =>
    cases h' with
    | root _ => rfl
    | up h' _ => rw [h] at h'; cases h'
  | up h _ ih =>
    cases h' with
    | root h' => rw [h] at h'; cases h'
    | up h' hd' =>
      rw [h] at h'
      cases h'
      rw [ih hd']

theorem Root.depth {s : List Int} {x r : Nat} (h : Root s x r) : ∃ d, Depth s x d := by
  induction h with
  | root h => exact ⟨0, .root h⟩
  | up h _ ih => obtain ⟨d, hd⟩ := ih; exact ⟨d + 1, .up h hd⟩

open Classical in
/-- The root of an element. -/
noncomputable def rootOf (s : List Int) (x : Nat) : Nat := if h : ∃ r, Root s x r then h.choose else x

open Classical in
/-- The depth of an element. -/
noncomputable def depthOf (s : List Int) (x : Nat) : Nat := if h : ∃ d, Depth s x d then h.choose else 0

theorem rootOf_eq {s : List Int} {x r : Nat} (h : Root s x r) : rootOf s x = r := by
  have e : ∃ r, Root s x r := ⟨r, h⟩
  unfold rootOf
  rw [dif_pos e]
  exact e.choose_spec.det h

theorem depthOf_eq {s : List Int} {x d : Nat} (h : Depth s x d) : depthOf s x = d := by
  have e : ∃ d, Depth s x d := ⟨d, h⟩
  unfold depthOf
  rw [dif_pos e]
  exact e.choose_spec.det h

theorem depth_parent {s : List Int} {x p r : Nat} (h : s[x]? = some (p : Int)) (hr : Root s p r) : depthOf s p < depthOf s x := by
  obtain ⟨d, hd⟩ := Root.depth hr
  rw [depthOf_eq hd, depthOf_eq (.up h hd)]
  omega

theorem depth_root {s : List Int} {x r : Nat} (h : Root s x r) (hne : r ≠ x) : depthOf s r < depthOf s x := by
  induction h with
  | root _ => exact absurd rfl hne
  | @up x p r hp hr ih =>
    have h1 := depth_parent hp hr
    by_cases c : r = p
    · rw [c]; exact h1
    · have := ih c; omega

theorem ranks {s : List Int} (hv : Valid s) : Ranks s.length (rootOf s) (depthOf s) := by
  refine ⟨fun x hx => ?_, fun x hx => ?_, fun x hx hne => ?_⟩ <;> obtain ⟨r, h⟩ := hv x hx
  · rw [rootOf_eq h]; exact (DsetOut.Root.self h).lt
  · rw [rootOf_eq h, rootOf_eq (DsetOut.Root.self h)]
  · rw [rootOf_eq h] at hne ⊢; exact depth_root h hne

theorem inv_launch {s : List Int} (hv : Valid s) (calls : List (Nat × Nat)) (hb : ∀ c ∈ calls, Root s c.1 c.1 ∧ c.2 < s.length) (ha : Apart s calls) :
    Inv s.length (rootOf s) (depthOf s) (launch s calls) := by
  have pc : ∀ t ∈ (launch s calls).ts, t.pc = .start := by
    intro t ht
    obtain ⟨c, -, rfl⟩ := List.mem_map.1 ht
    rfl
  have nofin : ∀ t, ¬ Fin (rootOf s) (launch s calls).ts t := by
    rintro t ⟨h1, h2, -⟩
    rw [pc t h1] at h2; cases h2
  refine ⟨⟨fun t ht => ?_, fun i j t t' hij hi hj => ?_⟩, ⟨rfl, fun x hx hne => ?_, fun t ht => absurd ht (nofin t), fun x hx hr _ => ?_⟩, fun t ht => ?_⟩
  · obtain ⟨c, hc, rfl⟩ := List.mem_map.1 ht
    obtain ⟨h1, h2⟩ := hb c hc
    exact ⟨h1.lt, rootOf_eq h1, h2⟩
  · simp only [launch, List.getElem?_map, Option.map_eq_some_iff] at hi hj
    obtain ⟨c, hi, rfl⟩ := hi
    obtain ⟨c', hj, rfl⟩ := hj
    obtain ⟨r, hr⟩ := hv c.2 (hb c (List.mem_of_getElem? hi)).2
    obtain ⟨r', hr'⟩ := hv c'.2 (hb c' (List.mem_of_getElem? hj)).2
    dsimp only
    rw [rootOf_eq hr, rootOf_eq hr']
    exact ha i j c c' r r' hij hi hj hr hr'
  · obtain ⟨r, hr⟩ := hv x hx
    cases hr with
    | root h => exact absurd (rootOf_eq (.root h)) hne
    | @up _ p _ h hr =>
      exact ⟨p, h, hr.lt, by rw [rootOf_eq hr, rootOf_eq (.up h hr)], depth_parent h hr⟩
  · obtain ⟨r, h⟩ := hv x hx
    rw [rootOf_eq h] at hr
    subst hr
    exact h.isRoot
  · unfold Good
    rw [pc t ht]
    trivial

/-! ## The final state -/

section Final
variable {n : Nat} {ρ dep : Nat → Nat} {ts : List Thread} {s : List Int}

/-- The root of the elements that had the root `r`. -/
def Goes (ρ : Nat → Nat) (ts : List Thread) (r r' : Nat) : Prop :=
  (∃ t, Fin ρ ts t ∧ loser ρ t = r ∧ winner ρ t = r') ∨ (r' = r ∧ ∀ t, Fin ρ ts t → loser ρ t ≠ r)

theorem goes (ρ : Nat → Nat) (ts : List Thread) (r : Nat) : ∃ r', Goes ρ ts r r' := by
  by_cases c : ∃ t, Fin ρ ts t ∧ loser ρ t = r
  · obtain ⟨t, h1, h2⟩ := c
    exact ⟨_, Or.inl ⟨t, h1, h2, rfl⟩⟩
  · exact ⟨r, Or.inr ⟨rfl, fun t ht e => c ⟨t, ht, e⟩⟩⟩

theorem root_final (hr : Ranks n ρ dep) (ha : Args n ρ ts) (hm : Mem n ρ dep ts s) {x : Nat} (hx : x < n) {r' : Nat} (hg : Goes ρ ts (ρ x) r') : Root s x r' := by
  generalize hd : dep x = d
  induction d using Nat.strongRecOn generalizing x with
  | _ d ih =>
    by_cases c : ρ x = x
    · rw [c] at hg
      rcases hg with ⟨t, ht, h1, h2⟩ | ⟨rfl, h⟩
      · refine .up (p := winner ρ t) (by rw [← h1]; exact hm.lost t ht) ?_
        rw [← h2]
        have hw : winner ρ t < n ∧ ρ (winner ρ t) = winner ρ t := by
          obtain ⟨a1, a2, a3⟩ := ha.elems t ht.1
          unfold winner
          split
          · exact ⟨hr.lt _ a3, hr.idem _ a3⟩
          · exact ⟨a1, a2⟩
        obtain ⟨k, hk⟩ := hm.neg _ hw.1 hw.2 (fun t' ht' => winner_kept ha ht ht')
        exact .root hk
      · obtain ⟨k, hk⟩ := hm.neg _ hx c h
        exact .root hk
    · obtain ⟨y, h1, h2, h3, h4⟩ := hm.non x hx c
      exact .up h1 (ih (dep y) (by omega) h2 (by rw [h3]; exact hg) rfl)

end Final

/-- C142, the part that holds: if the calls do not meet (`Apart`) and their first arguments are roots, as the code takes for granted, then under every schedule all threads end, without a fault, and two elements are then in the same set exactly if
they were before or the calls connect them.  Missing: calls that meet, for which it is false (`concurrent_unions_never_found`, `concurrent_unions_wrong_sets`). -/
theorem concurrent_unions_partial {n : Nat} {E : List (Nat × Nat)} (d : DSet) (h : St n E d) (calls : List (Nat × Nat)) (hb : ∀ c ∈ calls, Root d.sets c.1 c.1 ∧ c.2 < n) (ha : Apart d.sets calls) :
    Sure Step (fun s => s.length = n ∧ (∀ x, x < n → ∃ r, Root s x r) ∧ ∀ x y, x < n → y < n → (Same s x y ↔ Conn (Pairs (E ++ calls)) x y)) (launch d.sets calls) := by
  have hlen := h.len
  subst hlen
  have hr := ranks h.valid
  refine (sure hr _ (inv_launch h.valid calls hb ha)).mono ?_
  rintro s ⟨ts, hi, hd, hC⟩
  have hcalls : ts.map (fun t => (t.u, t.v)) = calls := by
    rw [hC]
    simp only [launch, List.map_map]
    exact List.map_id' calls
  have hroot : ∀ x, x < d.sets.length → Root d.sets x (rootOf d.sets x) := by
    intro x hx
    obtain ⟨r, h1⟩ := h.valid x hx
    rw [rootOf_eq h1]; exact h1
  have hfin : ∀ x, x < d.sets.length → ∀ r', Goes (rootOf d.sets) ts (rootOf d.sets x) r' → Root s x r' := fun x hx r' hg => root_final hr hi.args hi.mem hx hg
  have hall : ∀ x, x < d.sets.length → ∃ r, Root s x r := by
    intro x hx
    obtain ⟨r', hg⟩ := goes (rootOf d.sets) ts (rootOf d.sets x)
    exact ⟨r', hfin x hx r' hg⟩
  -- the same set before is the same set after
  have keep : ∀ x y, x < d.sets.length → y < d.sets.length → rootOf d.sets x = rootOf d.sets y → Same s x y := by
    intro x y hx hy e
    obtain ⟨r', hg⟩ := goes (rootOf d.sets) ts (rootOf d.sets x)
    exact ⟨r', hfin x hx r' hg, hfin y hy r' (by rw [← e]; exact hg)⟩
  have conn : ∀ x, x < d.sets.length → Conn (Pairs (E ++ calls)) x (rootOf d.sets x) := by
    intro x hx
    have := (h.same x (rootOf d.sets x) hx (hr.lt x hx)).1 ⟨_, hroot x hx, DsetOut.Root.self (hroot x hx)⟩
    exact this.lift fun a b hab => .of (List.mem_append_left _ hab)
  have call : ∀ t ∈ ts, Conn (Pairs (E ++ calls)) t.u (rootOf d.sets t.v) := by
    intro t ht
    have hm : (t.u, t.v) ∈ E ++ calls := List.mem_append_right _ (by rw [← hcalls]; exact List.mem_map.2 ⟨t, ht, rfl⟩)
    exact (Conn.fwd (.refl t.u) hm).trans (conn t.v (hi.args.elems t ht).2.2)
  refine ⟨hi.mem.len, hall, fun x y hx hy => ⟨?_, ?_⟩⟩
  · have goesConn : ∀ z, z < d.sets.length → ∀ r, Root s z r → Conn (Pairs (E ++ calls)) z r := by
      intro z hz r hzr
      obtain ⟨r', hg⟩ := goes (rootOf d.sets) ts (rootOf d.sets z)
      have e := (hfin z hz r' hg).det hzr
      subst e
      rcases hg with ⟨t, ht, h1, h2⟩ | ⟨h1, -⟩
      · have ct := call t ht.1
        refine (conn z hz).trans ?_
        rw [← h1, ← h2]
        unfold loser winner
        split
        · exact ct
        · exact ct.symm
      · rw [h1]; exact conn z hz
    rintro ⟨r, h1, h2⟩
    exact (goesConn x hx r h1).trans (goesConn y hy r h2).symm
  · intro hc
    have step : ∀ a b, Pairs (E ++ calls) a b → a < d.sets.length ∧ b < d.sets.length ∧ Same s a b := by
      intro a b hab
      rcases List.mem_append.1 hab with hab | hab
      · obtain ⟨h1, h2⟩ := h.below _ hab
        refine ⟨h1, h2, keep a b h1 h2 ?_⟩
        obtain ⟨r, e1, e2⟩ := (h.same a b h1 h2).2 (.fwd (.refl a) hab)
        rw [rootOf_eq e1, rootOf_eq e2]
      · rw [← hcalls] at hab
        obtain ⟨t, ht, e⟩ := List.mem_map.1 hab
        cases e
        obtain ⟨h1, h2, h3⟩ := hi.args.elems t ht
        refine ⟨h1, h3, ?_⟩
        by_cases c : t.u = rootOf d.sets t.v
        · exact keep _ _ h1 h3 (by rw [h2, c])
        · have hf : Fin (rootOf d.sets) ts t := ⟨ht, hd t ht, c⟩
          have e1 : Goes (rootOf d.sets) ts (loser (rootOf d.sets) t) (winner (rootOf d.sets) t) := Or.inl ⟨t, hf, rfl, rfl⟩
          have e2 : Goes (rootOf d.sets) ts (winner (rootOf d.sets) t) (winner (rootOf d.sets) t) := Or.inr ⟨rfl, fun t' ht' => winner_kept hi.args hf ht'⟩
          by_cases lt : t.u < t.v
          · simp only [loser, winner, if_pos lt] at e1 e2
            exact ⟨_, hfin _ h1 _ (by rw [h2]; exact e1), hfin _ h3 _ e2⟩
          · simp only [loser, winner, if_neg lt] at e1 e2
            exact ⟨_, hfin _ h1 _ (by rw [h2]; exact e2), hfin _ h3 _ e1⟩
    have strans : ∀ a b c, Same s a b → Same s b c → Same s a c := by
      rintro a b c ⟨r, h1, h2⟩ ⟨r', h3, h4⟩
      have := h2.det h3
      subst this
      exact ⟨r, h1, h4⟩
    clear hy
    induction hc with
    | refl => exact keep x x hx hx rfl
    | fwd _ hR ih => exact strans _ _ _ ih (step _ _ hR).2.2
    | bwd _ hR ih =>
      obtain ⟨r, h1, h2⟩ := (step _ _ hR).2.2
      exact strans _ _ _ ih ⟨r, h2, h1⟩

/-- C142, against the property: two threads call `unionBySizeAtomic(2, 0)` and `unionBySizeAtomic(3, 2)` on four single elements.  There is a run after which `find_with_pathcompression(2)` never returns, because 2 has become its
own parent. -/
theorem concurrent_unions_never_found : Runs Step (launch (create 4).sets [(2, 0), (3, 2)]) (.ok [2, -1, 2, -2]) ∧ ∀ o, ¬ findCompress ⟨[2, -1, 2, -2], 4⟩ 2 o := by
  constructor
  · refine .step (.ok (i := 0) rfl (by decide) rfl) ?_
    refine .step (.ok (i := 0) rfl (by decide) rfl) ?_
    refine .step (.ok (i := 0) rfl (by decide) rfl) ?_
    refine .step (.ok (i := 1) rfl (by decide) rfl) ?_
    refine .step (.ok (i := 1) rfl (by decide) rfl) ?_
    refine .step (.ok (i := 1) rfl (by decide) rfl) ?_
    refine .step (.ok (i := 1) rfl (by decide) rfl) ?_
    refine .step (.ok (i := 1) rfl (by decide) rfl) ?_
    refine .step (.ok (i := 1) rfl (by decide) rfl) ?_
    refine .step (.ok (i := 0) rfl (by decide) rfl) ?_
    refine .step (.ok (i := 0) rfl (by decide) rfl) ?_
    refine .step (.ok (i := 0) rfl (by decide) rfl) ?_
    exact .done (.stop (by decide))
  · obtain ⟨d', h1, h2⟩ := reset_then_find_never_ends ⟨[2, -1, -1, -2], 4⟩ 2 (by decide)
    have : d' = ⟨[2, -1, 2, -2], 4⟩ := by
      have e : resetAt ⟨[2, -1, -1, -2], 4⟩ ((2 : Nat) : Int) = .ok (some ⟨[2, -1, 2, -2], 4⟩) := rfl
      rw [e] at h1
      cases h1; rfl
    rw [this] at h2
    exact h2

/-- C142, against the property: two threads call `unionBySizeAtomic(0, 4)` and `unionBySizeAtomic(0, 2)` on five single elements.  There is a run after which 0 and 4 are in different sets, although a call has joined
them, and 3, which no call has named, is in the set of 0. -/
theorem concurrent_unions_wrong_sets : Runs Step (launch (create 5).sets [(0, 4), (0, 2)]) (.ok [2, -1, 3, -1, -1]) ∧
    (¬ Same [2, -1, 3, -1, -1] 0 4 ∧ Conn (Pairs [(0, 4), (0, 2)]) 0 4) ∧ (Same [2, -1, 3, -1, -1] 0 3 ∧ ¬ Conn (Pairs [(0, 4), (0, 2)]) 0 3) := by
  have r0 : Root [2, -1, 3, -1, -1] 0 3 := .up (p := 2) rfl (.up (p := 3) rfl (.root (k := 0) rfl))
  have r3 : Root [2, -1, 3, -1, -1] 3 3 := .root (k := 0) rfl
  have r4 : Root [2, -1, 3, -1, -1] 4 4 := .root (k := 0) rfl
  refine ⟨?_, ⟨?_, .fwd (.refl 0) (by simp [Pairs])⟩, ⟨3, r0, r3⟩, ?_⟩
  · refine .step (.ok (i := 1) rfl (by decide) rfl) ?_
    refine .step (.ok (i := 0) rfl (by decide) rfl) ?_
    refine .step (.ok (i := 0) rfl (by decide) rfl) ?_
    refine .step (.ok (i := 0) rfl (by decide) rfl) ?_
    refine .step (.ok (i := 0) rfl (by decide) rfl) ?_
    refine .step (.ok (i := 0) rfl (by decide) rfl) ?_
    refine .step (.ok (i := 0) rfl (by decide) rfl) ?_
    refine .step (.ok (i := 1) rfl (by decide) rfl) ?_
    refine .step (.ok (i := 1) rfl (by decide) rfl) ?_
    refine .step (.ok (i := 1) rfl (by decide) rfl) ?_
    refine .step (.ok (i := 1) rfl (by decide) rfl) ?_
    refine .step (.ok (i := 1) rfl (by decide) rfl) ?_
    exact .done (.stop (by decide))
  · rintro ⟨r, h1, h2⟩
    have e1 := r0.det h1
    have e2 := r4.det h2
    omega
  · intro h
    have : ∀ x y, Conn (Pairs [(0, 4), (0, 2)]) x y → (x = 0 ∨ x = 4 ∨ x = 2) → (y = 0 ∨ y = 4 ∨ y = 2) := by
      intro x y h hx
      induction h with
      | refl => exact hx
      | fwd _ hR _ => simp [Pairs] at hR; omega
      | bwd _ hR _ => simp [Pairs] at hR; omega
    have := this 0 3 h (Or.inl rfl)
    omega

/-! ## The hypotheses are met -/

/-- Five single elements and three threads, two of which share their first argument. -/
example : Sure Step (fun s => Same s 0 1 ∧ Same s 1 4 ∧ Same s 2 3 ∧ ¬ Same s 0 2) (launch (create 5).sets [(4, 0), (4, 1), (2, 3)]) := by
  have hroot : ∀ x, x < 5 → Root (create 5).sets x x := fun x hx => .root (k := 0) (by interval_cases x <;> rfl)
  refine (concurrent_unions_partial (create 5) (st_create 5) [(4, 0), (4, 1), (2, 3)] ?_ ?_).mono ?_
  · intro c hc
    simp only [List.mem_cons, List.not_mem_nil, or_false] at hc
    rcases hc with rfl | rfl | rfl <;> exact ⟨hroot _ (by decide), by decide⟩
  · intro i j c c' r r' hij hi hj hr hr'
    have hi' : i < 3 := (List.getElem?_eq_some_iff.1 hi).1
    have hj' : j < 3 := (List.getElem?_eq_some_iff.1 hj).1
    interval_cases i <;> interval_cases j <;> first
      | exact absurd rfl hij
      | (cases hi; cases hj
         have e := hr.det (hroot _ (by decide)); have e' := hr'.det (hroot _ (by decide)); subst e; subst e'; decide)
  · rintro s ⟨-, -, h⟩
    refine ⟨(h 0 1 (by decide) (by decide)).2 ?_, (h 1 4 (by decide) (by decide)).2 ?_, (h 2 3 (by decide) (by decide)).2 ?_, fun k => ?_⟩
    · exact .fwd (.bwd (.refl 0) (y := 0) (z := 4) (by simp [Pairs])) (by simp [Pairs])
    · exact .bwd (.refl 1) (by simp [Pairs])
    · exact .fwd (.refl 2) (by simp [Pairs])
    · have := (h 0 2 (by decide) (by decide)).1 k
      have key : ∀ x y, Conn (Pairs ([] ++ [(4, 0), (4, 1), (2, 3)])) x y → (x = 0 ∨ x = 1 ∨ x = 4) → (y = 0 ∨ y = 1 ∨ y = 4) := by
        intro x y h hx
        induction h with
        | refl => exact hx
        | fwd _ hR _ => simp [Pairs] at hR; omega
        | bwd _ hR _ => simp [Pairs] at hR; omega
      have := key 0 2 this (Or.inl rfl)
      omega

end NW.DsetPar
