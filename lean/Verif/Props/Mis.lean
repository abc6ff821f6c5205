import Verif.Model.Mis
import Verif.Lemmas.ListRes
import Mathlib.Data.List.Perm.Subperm
import Mathlib.Data.List.Nodup

/-! # Properties C29 (maximal independent set) and C30 (colouring) -/

namespace NW.Mis
open Spec

variable {α : Type}

/-- No two different members are adjacent, and every other vertex is adjacent to a member. -/
structure IsMis (g : Rows α) (S : List Nat) : Prop where
  vertices : ∀ u ∈ S, u < g.length
  independent : ∀ u ∈ S, ∀ v ∈ S, u ≠ v → ¬ Edge g u v
  maximal : ∀ v, v < g.length → v ∉ S → ∃ u ∈ S, Edge g u v

theorem removeRow_ok (row : List (Nat × α)) {n : Nat} {removed : List Bool} (hl : removed.length = n) (hr : ∀ e ∈ row, e.1 < n) :
    ∃ r, removeRow removed row = .ok r ∧ r.length = n ∧ ∀ x, r[x]? = some true ↔ removed[x]? = some true ∨ x ∈ row.map Prod.fst := by
  induction row generalizing removed with
  | nil => exact ⟨removed, rfl, hl, by simp⟩
  | cons e es ih =>
    have he := hr e (by simp)
    obtain ⟨r, k1, k2, k3⟩ := ih (removed := removed.set e.1 true) (by simpa using hl) fun x hx => hr x (by simp [hx])
    refine ⟨r, ?_, k2, fun x => ?_⟩
    · unfold removeRow at k1 ⊢
      rw [List.foldlM_cons, vset_of_lt (by omega), res_bind_ok, k1]
    · rw [k3, List.getElem?_set, List.map_cons, List.mem_cons]
      by_cases c : e.1 = x
      · subst c; simp [hl, he]
      · have : x ≠ e.1 := fun h => c h.symm
        simp [c, this]

/-- The invariant after the vertices below `k`. -/
structure MInv (g : Rows α) (mis0 : List Nat) (k : Nat) (s : List Bool × List Nat) : Prop where
  len : s.1.length = g.length
  out : ∃ S, s.2 = mis0 ++ S ∧ S.Pairwise (· < ·) ∧ (∀ u ∈ S, u < k) ∧ (∀ x, s.1[x]? = some true ↔ ∃ u ∈ S, Edge g u x) ∧
    (∀ u ∈ S, ∀ v ∈ S, u < v → ¬ Edge g u v) ∧ ∀ v, v < k → v ∉ S → ∃ u ∈ S, u < v ∧ Edge g u v

theorem mis_loop (g : Rows α) (hg : InRange g) (mis : List Nat) :
    ∃ S, maximalIndependentSet g mis = .ok (mis ++ S) ∧ S.Pairwise (· < ·) ∧ (∀ u ∈ S, u < g.length) ∧ (∀ u ∈ S, ∀ v ∈ S, u < v → ¬ Edge g u v) ∧
      ∀ v, v < g.length → v ∉ S → ∃ u ∈ S, u < v ∧ Edge g u v := by
  obtain ⟨s, h1, h2⟩ := foldlM_range_inv (n := g.length) (f := misStep g) (s := (List.replicate g.length false, mis)) (MInv g mis)
    ⟨by simp, [], by simp, by simp, by simp, fun x => ⟨fun h => by have := List.mem_of_getElem? h; simp at this, by simp⟩, by simp, by simp⟩ (by
      rintro k hk ⟨removed, out⟩ ⟨hlen, S, hS, hsort, hlt, hrem, hind, hmax⟩
      simp only at hlen hS hrem
      have hkl : k < removed.length := by omega
      unfold misStep
      simp only
      rw [vget_of_lt hkl, res_bind_ok]
      cases hb : removed[k] with
      | true =>
        rw [if_pos rfl]
        refine ⟨_, rfl, hlen, S, hS, hsort, fun u hu => by have := hlt u hu; omega, hrem, hind, fun v hv hvS => ?_⟩
        by_cases c : v = k
        · subst c
          obtain ⟨u, hu, he⟩ := (hrem v).1 (by rw [List.getElem?_eq_getElem hkl, hb])
          exact ⟨u, hu, hlt u hu, he⟩
        · exact hmax v (by omega) hvS
      | false =>
        rw [if_neg (by simp)]
        have hrow : ∀ e ∈ g[k], e.1 < g.length := fun e he => hg k e.1 (by
          rw [Edge, nbrs, List.getD_eq_getElem?_getD, List.getElem?_eq_getElem hk]
          exact List.mem_map_of_mem he)
        have hedge : ∀ x, Edge g k x ↔ x ∈ g[k].map Prod.fst := by
          intro x
          rw [Edge, nbrs, List.getD_eq_getElem?_getD, List.getElem?_eq_getElem hk]; rfl
        obtain ⟨r, e1, e2, e3⟩ := removeRow_ok g[k] hlen hrow
        rw [vget_of_lt hk, res_bind_ok, e1, res_bind_ok]
        have hno : ∀ u ∈ S, ¬ Edge g u k := fun u hu he => by
          have := (hrem k).2 ⟨u, hu, he⟩
          rw [List.getElem?_eq_getElem hkl, hb] at this
          simp at this
        refine ⟨_, rfl, e2, S ++ [k], by simp [hS], ?_, ?_, ?_, ?_, ?_⟩
        · rw [List.pairwise_append]
          exact ⟨hsort, by simp, fun a ha b hb' => by rw [List.mem_singleton] at hb'; subst hb'; exact hlt a ha⟩
        · intro u hu
          rcases List.mem_append.1 hu with hu | hu
          · have := hlt u hu; omega
          · rw [List.mem_singleton] at hu; omega
        · intro x
          simp only
          rw [e3, hrem, ← hedge]
          constructor
          · rintro (⟨u, hu, he⟩ | he)
            · exact ⟨u, List.mem_append.2 (Or.inl hu), he⟩
            · exact ⟨k, by simp, he⟩
          · rintro ⟨u, hu, he⟩
            rcases List.mem_append.1 hu with hu | hu
            · exact Or.inl ⟨u, hu, he⟩
            · rw [List.mem_singleton] at hu; subst hu; exact Or.inr he
        · intro u hu v hv huv
          rcases List.mem_append.1 hu with hu' | hu
          · have hu := hu'
            rcases List.mem_append.1 hv with hv | hv
            · exact hind u hu v hv huv
            · rw [List.mem_singleton] at hv; rw [hv]; exact hno u hu
          · rw [List.mem_singleton] at hu; subst hu
            rcases List.mem_append.1 hv with hv | hv
            · have := hlt v hv; omega
            · rw [List.mem_singleton] at hv; omega
        · intro v hv hvS
          have hv1 : v ∉ S := fun h => hvS (List.mem_append.2 (Or.inl h))
          have hv2 : v ≠ k := fun h => hvS (List.mem_append.2 (Or.inr (by simpa using h)))
          obtain ⟨u, hu, h⟩ := hmax v (by omega) hv1
          exact ⟨u, List.mem_append.2 (Or.inl hu), h⟩)
  obtain ⟨-, S, hS, hsort, hlt, -, hind, hmax⟩ := h2
  refine ⟨S, ?_, hsort, hlt, hind, hmax⟩
  unfold maximalIndependentSet
  rw [h1, res_bind_ok, hS]; rfl

/-- C29.  On every symmetric graph, `maximal_independent_set` appends a maximal independent set, in increasing order. -/
theorem mis_correct (g : Rows α) (hg : InRange g) (hsym : ∀ u v, Edge g u v → Edge g v u) (mis : List Nat) :
    ∃ S, maximalIndependentSet g mis = .ok (mis ++ S) ∧ S.Pairwise (· < ·) ∧ IsMis g S := by
  obtain ⟨S, h1, h2, h3, h4, h5⟩ := mis_loop g hg mis
  refine ⟨S, h1, h2, h3, fun u hu v hv hne he => ?_, fun v hv hvS => ?_⟩
  · rcases Nat.lt_or_ge u v with c | c
    · exact h4 u hu v hv c he
    · exact h4 v hv u hu (by omega) (hsym u v he)
  · obtain ⟨u, k1, -, k2⟩ := h5 v hv hvS
    exact ⟨u, k1, k2⟩

/-- C29, any graph.  Without symmetry the set is the greedy one: no member has an edge to a later member, and every other vertex has an edge from an
earlier member. -/
theorem mis_greedy (g : Rows α) (hg : InRange g) (mis : List Nat) :
    ∃ S, maximalIndependentSet g mis = .ok (mis ++ S) ∧ S.Pairwise (· < ·) ∧ (∀ u ∈ S, u < g.length) ∧ (∀ u ∈ S, ∀ v ∈ S, u < v → ¬ Edge g u v) ∧
      ∀ v, v < g.length → v ∉ S → ∃ u ∈ S, u < v ∧ Edge g u v := mis_loop g hg mis

/-- C29: symmetry is needed.  On 1 → 0 both vertices are returned. -/
theorem mis_directed_not_independent : maximalIndependentSet [[], [(0, ())]] [] = .ok [0, 1] ∧ Edge [[], [(0, ())]] 1 0 := by decide

/-! ## firstMissingPositive -/

/-- The least positive number that is not in `arr`. -/
def IsFirstMissing (arr : List Nat) (m : Nat) : Prop := 0 < m ∧ m ∉ arr ∧ ∀ k, 0 < k → k < m → k ∈ arr

/-- Element `k` is at its place or out of range. -/
def Placed (arr : List Nat) (k : Nat) : Prop := ∀ a, arr[k]? = some a → 1 ≤ a → a ≤ arr.length → arr[a - 1]? = some a

/-- How many positions hold the wrong element. -/
def misplaced (arr : List Nat) : Nat := (List.range arr.length).countP fun k => decide (arr[k]? ≠ some (k + 1))

theorem countP_lt {l : List Nat} {p q : Nat → Bool} (h : ∀ x ∈ l, p x = true → q x = true) {y : Nat} (hy : y ∈ l) (h1 : p y = false) (h2 : q y = true) :
    l.countP p < l.countP q := by
  induction l with
  | nil => cases hy
  | cons x xs ih =>
    have hmono : xs.countP p ≤ xs.countP q := List.countP_mono_left fun z hz => h z (by simp [hz])
    rw [List.countP_cons, List.countP_cons]
    rcases List.mem_cons.1 hy with rfl | hy
    · simp [h1, h2]; omega
    · have := ih (fun z hz => h z (by simp [hz])) hy
      have hx := h x (by simp)
      cases hp : p x <;> cases hq : q x <;> simp_all <;> omega

theorem swap_perm {arr : List Nat} {i j : Nat} {a b : Nat} (hi : arr[i]? = some a) (hj : arr[j]? = some b) : ((arr.set i b).set j a).Perm arr := by
  have hil := (List.getElem?_eq_some_iff.1 hi).1
  have hjl := (List.getElem?_eq_some_iff.1 hj).1
  have := List.set_set_perm (as := arr) hil hjl
  rw [(List.getElem?_eq_some_iff.1 hi).2, (List.getElem?_eq_some_iff.1 hj).2] at this
  exact this

theorem place_total (arr0 : List Nat) : ∃ arr, Loop placeBody (arr0, 0) (.ok arr) ∧ arr.Perm arr0 ∧ ∀ k, k < arr.length → Placed arr k := by
  obtain ⟨⟨arr, i⟩, r, ⟨h1, h2, h3⟩, h4, h5⟩ := Loop.totalWf (body := placeBody)
    (fun s => s.1.Perm arr0 ∧ s.2 ≤ s.1.length ∧ ∀ k, k < s.2 → Placed s.1 k) (fun s => (misplaced s.1, s.1.length - s.2))
    (Prod.lex Nat.lt_wfRel Nat.lt_wfRel).wf (by
      rintro ⟨arr, i⟩ ⟨h1, h2, h3⟩
      simp only at h1 h2 h3
      unfold placeBody
      simp only
      by_cases c : i < arr.length
      · rw [if_pos c, vget_of_lt c, res_bind_ok]
        have hai : arr[i]? = some arr[i] := List.getElem?_eq_getElem c
        generalize hav : arr[i] = a at *
        have next : Placed arr i → (fun s : List Nat × Nat => s.1.Perm arr0 ∧ s.2 ≤ s.1.length ∧ ∀ k, k < s.2 → Placed s.1 k) (arr, i + 1) := by
          intro hp
          refine ⟨h1, c, fun k hk => ?_⟩
          by_cases e : k = i
          · subst e; exact hp
          · exact h3 k (by simp only at hk; omega)
        have nextLt : Prod.Lex (· < ·) (· < ·) (misplaced arr, arr.length - (i + 1)) (misplaced arr, arr.length - i) := Prod.Lex.right _ (by omega)
        by_cases c1 : 1 ≤ a ∧ a ≤ arr.length
        · rw [if_pos c1]
          have hb : a - 1 < arr.length := by omega
          rw [vget_of_lt hb, res_bind_ok]
          have hbj : arr[a - 1]? = some arr[a - 1] := List.getElem?_eq_getElem hb
          generalize hbv : arr[a - 1] = b at *
          by_cases c2 : a ≠ b
          · rw [if_pos c2, vset_of_lt c, res_bind_ok, vset_of_lt (by simpa using hb), res_bind_ok]
            left
            have hij : i ≠ a - 1 := by
              rintro e
              rw [← e, hai] at hbj
              exact c2 (Option.some.inj hbj)
            have hperm := swap_perm hai hbj
            have hget : ∀ k : Nat, ((arr.set i b).set (a - 1) a)[k]? = if k = a - 1 then some a else if k = i then some b else arr[k]? := by
              intro k
              rw [List.getElem?_set, List.getElem?_set]
              by_cases e1 : a - 1 = k
              · subst e1
                simp [hb]
              · have e1' : k ≠ a - 1 := fun e => e1 e.symm
                simp only [e1, e1', if_false]
                by_cases e2 : i = k
                · subst e2; simp [c]
                · have e2' : k ≠ i := fun e => e2 e.symm
                  simp only [e2, e2', if_false]
            have hlen : ((arr.set i b).set (a - 1) a).length = arr.length := by simp
            -- a position holding its own element is not touched
            have keep : ∀ v, 1 ≤ v → arr[v - 1]? = some v → ((arr.set i b).set (a - 1) a)[v - 1]? = some v := by
              intro v hv0 hv
              rw [hget]
              by_cases e1 : v - 1 = a - 1
              · rw [if_pos e1]; congr 1; omega
              · rw [if_neg e1]
                by_cases e2 : v - 1 = i
                · exfalso
                  rw [e2, hai] at hv
                  have := Option.some.inj hv
                  omega
                · rw [if_neg e2]; exact hv
            refine ⟨_, rfl, ⟨hperm.trans h1, by simpa using h2, fun k hk v hkv hv1 hv2 => ?_⟩, Prod.Lex.left _ _ ?_⟩
            · simp only at hk hkv hv2 ⊢
              rw [hlen] at hv2
              rw [hget] at hkv
              by_cases e1 : k = a - 1
              · rw [if_pos e1] at hkv
                cases hkv
                rw [hget, if_pos rfl]
              · rw [if_neg e1, if_neg (by omega)] at hkv
                exact keep v hv1 (h3 k hk v hkv hv1 hv2)
            · unfold misplaced
              simp only
              rw [hlen]
              refine countP_lt (y := a - 1) ?_ (by simpa using hb) ?_ ?_
              · intro k _ hk
                rw [decide_eq_true_eq] at hk ⊢
                intro hc
                exact hk (by have := keep (k + 1) (by omega) (by simpa using hc); simpa using this)
              · rw [decide_eq_false_iff_not, not_not, hget, if_pos rfl]; congr 1; omega
              · rw [decide_eq_true_eq, hbj]
                intro e
                have := Option.some.inj e
                omega
          · rw [if_neg c2]
            left
            refine ⟨_, rfl, next ?_, nextLt⟩
            intro v hv hv1 hv2
            rw [hai] at hv; cases hv
            rw [hbj]; congr 1; omega
        · rw [if_neg c1]
          left
          refine ⟨_, rfl, next ?_, nextLt⟩
          intro v hv hv1 hv2
          rw [hai] at hv; cases hv
          exact absurd ⟨hv1, hv2⟩ c1
      · rw [if_neg c]
        exact Or.inr ⟨_, rfl⟩) (arr0, 0) ⟨List.Perm.refl _, Nat.zero_le _, by simp⟩
  simp only at h1 h2 h3
  have hi : ¬ i < arr.length := by
    intro c
    unfold placeBody at h4
    simp only at h4
    rw [if_pos c, vget_of_lt c, res_bind_ok] at h4
    split at h4
    · next c1 =>
      rw [vget_of_lt (show arr[i] - 1 < arr.length by omega), res_bind_ok] at h4
      split at h4
      · rw [vset_of_lt c, res_bind_ok, vset_of_lt (by simp; omega), res_bind_ok] at h4
        cases h4
      · cases h4
    · cases h4
  unfold placeBody at h4
  simp only at h4
  rw [if_neg hi] at h4
  cases h4
  exact ⟨arr, h5, h1, fun k hk => h3 k (by omega)⟩

theorem firstWrong_spec {arr : List Nat} (h : ∀ k, k < arr.length → Placed arr k) : IsFirstMissing arr (firstWrong arr) := by
  have hmem : ∀ v, 1 ≤ v → v ≤ arr.length → v ∈ arr → arr[v - 1]? = some v := by
    intro v hv1 hv2 hv
    obtain ⟨k, hk⟩ := List.getElem?_of_mem hv
    exact h k (List.getElem?_eq_some_iff.1 hk).1 v hk hv1 hv2
  unfold firstWrong
  cases hf : arr.zipIdx.find? fun e => e.1 ≠ e.2 + 1 with
  | none =>
    have hall : ∀ k : Nat, k < arr.length → arr[k]? = some (k + 1) := by
      intro k hk
      have := List.find?_eq_none.1 hf (arr[k], k) (by
        rw [List.mem_zipIdx_iff_getElem?]; exact List.getElem?_eq_getElem hk)
      rw [List.getElem?_eq_getElem hk]
      simpa using this
    refine ⟨by simp, ?_, ?_⟩
    · intro hm
      simp only [Option.elim_none] at hm
      obtain ⟨k, hk⟩ := List.getElem?_of_mem hm
      have hkl := (List.getElem?_eq_some_iff.1 hk).1
      rw [hall k hkl] at hk
      have := Option.some.inj hk
      omega
    · intro k hk0 hk
      simp only [Option.elim_none] at hk
      exact List.mem_of_getElem? (show arr[k - 1]? = some k by rw [hall (k - 1) (by omega)]; congr 1; omega)
  | some e =>
    obtain ⟨a, i⟩ := e
    obtain ⟨hne, pre, post, hsplit, hpre⟩ := List.find?_eq_some_iff_append.1 hf
    have hmi : (a, i) ∈ arr.zipIdx := by rw [hsplit]; simp
    have hai : arr[i]? = some a := List.mem_zipIdx_iff_getElem?.1 hmi
    have hil := (List.getElem?_eq_some_iff.1 hai).1
    have hprelen : pre.length = i := by
      have h1 : (pre ++ (a, i) :: post)[pre.length]? = some (a, i) := by simp
      rw [← hsplit, List.getElem?_zipIdx] at h1
      obtain ⟨x, -, h3⟩ := Option.map_eq_some_iff.1 h1
      simp only [Prod.mk.injEq] at h3
      omega
    have hall : ∀ k : Nat, k < i → arr[k]? = some (k + 1) := by
      intro k hk
      have hkl : k < arr.length := by omega
      have : (arr[k], k) ∈ pre := by
        have h1 : (pre ++ (a, i) :: post)[k]? = some (arr[k], k) := by
          rw [← hsplit, List.getElem?_zipIdx, List.getElem?_eq_getElem hkl]; simp
        rw [List.getElem?_append_left (by omega)] at h1
        exact List.mem_of_getElem? h1
      have := hpre _ this
      rw [List.getElem?_eq_getElem hkl]
      simpa using this
    refine ⟨by simp, ?_, ?_⟩
    · intro hm
      simp only [Option.elim_some] at hm
      have := hmem (i + 1) (by omega) (by omega) hm
      rw [Nat.add_sub_cancel, hai] at this
      have := Option.some.inj this
      simp at hne
      omega
    · intro k hk0 hk
      simp only [Option.elim_some] at hk
      exact List.mem_of_getElem? (show arr[k - 1]? = some k by rw [hall (k - 1) (by omega)]; congr 1; omega)

/-- C30, the colour chosen.  `firstMissingPositive` ends, stays inside its array and returns the least positive number that is not in it. -/
theorem firstMissingPositive_correct (arr : List Nat) :
    ∃ m, FirstMissing arr (.ok m) ∧ IsFirstMissing arr m ∧ ∀ o, FirstMissing arr o → o = .ok m := by
  obtain ⟨p, h1, h2, h3⟩ := place_total arr
  obtain ⟨k1, k2, k3⟩ := firstWrong_spec h3
  refine ⟨firstWrong p, ⟨_, h1, rfl⟩, ⟨k1, fun h => k2 (h2.mem_iff.2 h), fun k a b => h2.mem_iff.1 (k3 k a b)⟩, ?_⟩
  rintro o ⟨p', e1, rfl⟩
  rw [e1.det h1]; rfl

theorem firstMissing_zeros {arr : List Nat} (h : ∀ x ∈ arr, x = 0) : FirstMissing arr (.ok 1) := by
  obtain ⟨m, h1, ⟨k1, k2, k3⟩, -⟩ := firstMissingPositive_correct arr
  have : m = 1 := by
    by_contra hne
    have := k3 1 (by omega) (by omega)
    have := h 1 this
    omega
  rw [this] at h1
  exact h1

/-- Colouring vertices all of whose neighbours are not coloured gives them colour 1. -/
theorem colour_ones (g : Rows α) {us colors : List Nat} (hlen : g.length ≤ colors.length) (hus : ∀ u ∈ us, u < g.length)
    (hind : ∀ u ∈ us, ∀ v ∈ us, ¬ Edge g u v) (hzero : ∀ u ∈ us, ∀ v, Edge g u v → colors[v]? = some 0) :
    ∃ r, Colour g colors us (.ok r) ∧ r.length = colors.length ∧ ∀ x : Nat, x < colors.length → r[x]? = if x ∈ us then some 1 else colors[x]? := by
  induction us generalizing colors with
  | nil => exact ⟨colors, .nil, rfl, fun x _ => by simp⟩
  | cons u us ih =>
    have hu := hus u (by simp)
    have hmem : ∀ e ∈ g[u], Edge g u e.1 := by
      intro e he
      rw [Edge, nbrs, List.getD_eq_getElem?_getD, List.getElem?_eq_getElem hu]
      exact List.mem_map_of_mem he
    have hrow : neighborColors g colors u = .ok (g[u].map fun _ => 0) := by
      unfold neighborColors
      rw [vget_of_lt hu, res_bind_ok]
      refine mapM_ok_of_forall fun e he => ?_
      rw [vget_eq_ok]
      exact hzero u (by simp) e.1 (hmem e he)
    obtain ⟨r, k1, k2, k3⟩ := ih (colors := colors.set u 1) (by simpa using hlen) (fun v hv => hus v (by simp [hv]))
      (fun a ha b hb => hind a (by simp [ha]) b (by simp [hb])) (by
        intro a ha v hv
        rw [List.getElem?_set, if_neg]
        · exact hzero a (by simp [ha]) v hv
        · rintro rfl
          exact hind a (by simp [ha]) u (by simp) hv)
    refine ⟨r, .cons hrow (firstMissing_zeros (by simp)) (vset_of_lt (by omega)) k1, by simpa using k2, fun x hx => ?_⟩
    rw [k3 x (by simpa using hx)]
    by_cases c : x ∈ us
    · simp [c]
    · rw [if_neg c]
      by_cases e : x = u
      · subst e
        rw [List.getElem?_set, if_pos rfl, if_pos (by omega)]
        simp
      · rw [List.getElem?_set, if_neg (fun h => e h.symm), if_neg (by simp [c, e])]

/-- C30, what the code computes.  On every symmetric graph without self loops the colouring routine ends without a fault, gives the members of one maximal
independent set the colour 1, and every other vertex the colour 0.  Missing from the full statement: the vertices outside the set are never coloured, so
the result need not be proper (`jp_not_proper`). -/
theorem jp_partial (g : Rows α) (hg : InRange g) (hsym : ∀ u v, Edge g u v → Edge g v u) (hloop : ∀ u, ¬ Edge g u u) (colors : List Nat)
    (hlen : colors.length = g.length) :
    ∃ S r, IsMis g S ∧ JonesPlassmann g colors (.ok r) ∧ r.length = g.length ∧ ∀ x : Nat, x < g.length → r[x]? = some (if x ∈ S then 1 else 0) := by
  obtain ⟨S, h1, h2, h3⟩ := mis_correct g hg hsym []
  rw [List.nil_append] at h1
  obtain ⟨r, k1, k2, k3⟩ := colour_ones g (us := S) (colors := List.replicate colors.length 0) (by simp [hlen]) h3.vertices
    (fun u hu v hv he => by
      by_cases c : u = v
      · subst c; exact hloop u he
      · exact h3.independent u hu v hv c he)
    (fun u hu v he => by rw [List.getElem?_replicate, if_pos (by rw [hlen]; exact hg u v he)])
  refine ⟨S, r, h3, by unfold JonesPlassmann; rw [h1]; exact k1, by rw [k2]; simp [hlen], fun x hx => ?_⟩
  rw [k3 x (by simpa [hlen] using hx)]
  split
  · rfl
  · rw [List.getElem?_replicate, if_pos (by omega)]

/-- C30, negative part.  On every symmetric graph without self loops that is not bipartite, two adjacent vertices get the same colour. -/
theorem jp_not_proper (g : Rows α) (hg : InRange g) (hsym : ∀ u v, Edge g u v → Edge g v u) (hloop : ∀ u, ¬ Edge g u u) (colors : List Nat)
    (hlen : colors.length = g.length) (hodd : ∀ c : Nat → Bool, ∃ u v, Edge g u v ∧ c u = c v) :
    ∃ r, JonesPlassmann g colors (.ok r) ∧ ∃ u v, Edge g u v ∧ r[u]? = r[v]? := by
  obtain ⟨S, r, -, h2, -, h4⟩ := jp_partial g hg hsym hloop colors hlen
  obtain ⟨u, v, he, hc⟩ := hodd fun x => decide (x ∈ S)
  refine ⟨r, h2, u, v, he, ?_⟩
  rw [h4 u he.src_lt, h4 v (hg u v he)]
  have : u ∈ S ↔ v ∈ S := by simpa using hc
  simp [this]

/-! ## The hypotheses can be met -/

/-- The path 0 – 1 – 2 – 3 and the triangle. -/
def exPath : Rows Unit := [[(1, ())], [(0, ()), (2, ())], [(1, ()), (3, ())], [(2, ())]]
def exTri : Rows Unit := [[(1, ()), (2, ())], [(0, ()), (2, ())], [(0, ()), (1, ())]]

theorem symm_of {g : Rows Unit} (h : ∀ u < g.length, ∀ v ∈ nbrs g u, Edge g v u) : ∀ u v, Edge g u v → Edge g v u :=
  fun u v he => h u he.src_lt v he

theorem loopless_of {g : Rows Unit} (h : ∀ u < g.length, ¬ Edge g u u) : ∀ u, ¬ Edge g u u := fun u he => h u he.src_lt he

example := mis_correct exPath (by decide) (symm_of (by decide)) [7]
example : maximalIndependentSet exPath [7] = .ok [7, 0, 2] := by decide
example := jp_partial exPath (by decide) (symm_of (by decide)) (loopless_of (by decide)) [5, 5, 5, 5] rfl
example := jp_not_proper exTri (by decide) (symm_of (by decide)) (loopless_of (by decide)) [0, 0, 0] rfl (by
  intro c
  have h01 : Edge exTri 0 1 := by decide
  have h02 : Edge exTri 0 2 := by decide
  have h12 : Edge exTri 1 2 := by decide
  by_cases k1 : c 0 = c 1
  · exact ⟨0, 1, h01, k1⟩
  · by_cases k2 : c 0 = c 2
    · exact ⟨0, 2, h02, k2⟩
    · refine ⟨1, 2, h12, ?_⟩
      revert k1 k2
      cases c 0 <;> cases c 1 <;> cases c 2 <;> simp)
example : FirstMissing [3, 1, 0, 7, 2, 1] (.ok 4) := ⟨_, Loop.of_runFuel (n := 30) (o := .ok [1, 2, 3, 7, 0, 1]) (by decide), rfl⟩

end NW.Mis
