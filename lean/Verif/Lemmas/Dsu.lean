import Verif.Model.Dsu
import Verif.Spec.SpanningForest
import Mathlib.Tactic.ByContra

/-! Invariants of the parent vector. -/

namespace NW.Dsu
open Spec

/-- Parents exist, and ranks grow towards the roots. -/
def WF (s : Subsets) : Prop := ∀ x p k : Nat, s[x]? = some (p, k) → ∃ q j : Nat, s[p]? = some (q, j) ∧ (p = x ∨ k < j)

/-- `r` is the root above `x`. -/
inductive RootOf (s : Subsets) : Nat → Nat → Prop
  | root {r k : Nat} (h : s[r]? = some (r, k)) : RootOf s r r
  | up {x p k r : Nat} (h : s[x]? = some (p, k)) (hne : p ≠ x) (hr : RootOf s p r) : RootOf s x r

theorem RootOf.det {s : Subsets} {x r r' : Nat} (h : RootOf s x r) (h' : RootOf s x r') : r = r' := by
  induction h with
  | root h =>
    cases h' with
    | root h' => rfl
    | up h' hne _ => rw [h] at h'; cases h'; exact absurd rfl hne
  | up h hne _ ih =>
    cases h' with
    | root h' => rw [h] at h'; cases h'; exact absurd rfl hne
    | up h' _ hr' => rw [h] at h'; cases h'; exact ih hr'

theorem RootOf.isRoot {s : Subsets} {x r : Nat} (h : RootOf s x r) : ∃ k, s[r]? = some (r, k) := by
  induction h with
  | root h => exact ⟨_, h⟩
  | up _ _ _ ih => exact ih

theorem RootOf.lt {s : Subsets} {x r : Nat} (h : RootOf s x r) : x < s.length := by
  cases h with
  | root h => exact (List.getElem?_eq_some_iff.1 h).1
  | up h => exact (List.getElem?_eq_some_iff.1 h).1

theorem RootOf.root_lt {s : Subsets} {x r : Nat} (h : RootOf s x r) : r < s.length := by
  obtain ⟨k, hk⟩ := h.isRoot
  exact (List.getElem?_eq_some_iff.1 hk).1

/-- A bound on the ranks. -/
def top (s : Subsets) : Nat := (s.map Prod.snd).sum

theorem le_top {s : Subsets} {x p k : Nat} (h : s[x]? = some (p, k)) : k ≤ top s := by
  have hm : k ∈ s.map Prod.snd := List.mem_map.2 ⟨(p, k), List.mem_of_getElem? h, rfl⟩
  unfold top
  generalize s.map Prod.snd = l at hm
  induction l with
  | nil => simp at hm
  | cons a l ih =>
    rw [List.sum_cons]
    rcases List.mem_cons.1 hm with rfl | hm
    · omega
    · have := ih hm; omega

theorem RootOf.exists {s : Subsets} (hw : WF s) {x : Nat} (hx : x < s.length) : ∃ r, RootOf s x r := by
  have aux : ∀ m x p k : Nat, s[x]? = some (p, k) → top s - k = m → ∃ r, RootOf s x r := by
    intro m
    induction m using Nat.strongRecOn with
    | ind m ih =>
      intro x p k h hm
      by_cases c : p = x
      · subst c; exact ⟨_, .root h⟩
      · obtain ⟨q, j, h1, h2⟩ := hw x p k h
        have hlt : k < j := by rcases h2 with e | e; exacts [absurd e c, e]
        have := le_top h1
        obtain ⟨r, hr⟩ := ih (top s - j) (by omega) p q j h1 rfl
        exact ⟨r, .up h c hr⟩
  exact aux _ x s[x].1 s[x].2 (List.getElem?_eq_getElem hx) rfl

theorem RootOf.rank {s : Subsets} (hw : WF s) {x r p k : Nat} (h : RootOf s x r) (hx : s[x]? = some (p, k)) :
    ∃ j, s[r]? = some (r, j) ∧ (x = r ∨ k < j) := by
  induction h generalizing p k with
  | root h => exact ⟨_, h, Or.inl rfl⟩
  | up h hne _ ih =>
    rw [h] at hx; cases hx
    obtain ⟨q, j, h1, h2⟩ := hw _ _ _ h
    obtain ⟨j', h3, h4⟩ := ih h1
    refine ⟨j', h3, Or.inr ?_⟩
    rcases h2 with e | hkj
    · exact absurd e hne
    · rcases h4 with e | e
      · subst e; rw [h1] at h3; cases h3; exact hkj
      · omega

theorem getElem?_set_ite {α : Type} {l : List α} {i j : Nat} {a : α} (hi : i < l.length) : (l.set i a)[j]? = if i = j then some a else l[j]? := by
  rw [List.getElem?_set]
  split
  · rfl
  · rfl

/-- Pointing a vertex directly at its root changes no root. -/
theorem shortcut {s : Subsets} (hw : WF s) {x r p k : Nat} (h : RootOf s x r) (hx : s[x]? = some (p, k)) :
    WF (s.set x (r, k)) ∧ ∀ y r', RootOf (s.set x (r, k)) y r' ↔ RootOf s y r' := by
  have hlt := h.lt
  obtain ⟨j, hj, hjr⟩ := h.rank hw hx
  have hw' : WF (s.set x (r, k)) := by
    intro y p' k' hy
    rw [getElem?_set_ite hlt] at hy
    split at hy
    · rename_i e
      subst e
      cases hy
      rw [getElem?_set_ite hlt]
      by_cases c : x = r
      · subst c; rw [if_pos rfl]; exact ⟨_, _, rfl, Or.inl rfl⟩
      · rw [if_neg c]; exact ⟨r, j, hj, Or.inr (by rcases hjr with e | e; exacts [absurd e c, e])⟩
    · obtain ⟨q, i, h1, h2⟩ := hw y p' k' hy
      rw [getElem?_set_ite hlt]
      by_cases c : x = p'
      · subst c
        rw [hx] at h1; cases h1
        rw [if_pos rfl]; exact ⟨_, _, rfl, h2⟩
      · rw [if_neg c]; exact ⟨q, i, h1, h2⟩
  have fwd : ∀ y r', RootOf s y r' → RootOf (s.set x (r, k)) y r' := by
    intro y r' hr
    induction hr with
    | root h1 =>
      rename_i y k1
      by_cases c : x = y
      · subst c
        have : r = x := h.det (.root h1)
        subst this
        exact .root (k := k) (by rw [getElem?_set_ite hlt, if_pos rfl])
      · exact .root (k := k1) (by rw [getElem?_set_ite hlt, if_neg c]; exact h1)
    | up h1 hne hr ih =>
      rename_i y p1 k1 r1
      by_cases c : x = y
      · subst c
        have : r = r1 := h.det (.up h1 hne hr)
        subst this
        by_cases d : r = x
        · subst d
          exact .root (k := k) (by rw [getElem?_set_ite hlt, if_pos rfl])
        · refine .up (k := k) (by rw [getElem?_set_ite hlt, if_pos rfl]) d (.root (k := j) ?_)
          rw [getElem?_set_ite hlt, if_neg (fun e => d e.symm)]; exact hj
      · exact .up (k := k1) (by rw [getElem?_set_ite hlt, if_neg c]; exact h1) hne ih
  refine ⟨hw', fun y r' => ⟨?_, fwd y r'⟩⟩
  intro hr
  have hy : y < s.length := by have := hr.lt; simpa using this
  obtain ⟨r'', hr''⟩ := RootOf.exists hw hy
  have := hr.det (fwd _ _ hr'')
  rw [this]; exact hr''

/-- Hanging the root `b` below the root `a`. -/
theorem merge {s : Subsets} (hw : WF s) {a b ka kb ka' : Nat} (ha : s[a]? = some (a, ka)) (hb : s[b]? = some (b, kb)) (hne : a ≠ b)
    (hk : kb < ka') (hk' : ka ≤ ka') {s' : Subsets}
    (hs' : ∀ x, s'[x]? = if x = a then some (a, ka') else if x = b then some (a, kb) else s[x]?) :
    WF s' ∧ ∀ x r, RootOf s x r → RootOf s' x (if r = b then a else r) := by
  have hra : RootOf s' a a := .root (k := ka') (by rw [hs', if_pos rfl])
  refine ⟨?_, ?_⟩
  · intro x p k hx
    rw [hs'] at hx
    split at hx
    · rename_i e; subst e; cases hx
      exact ⟨_, ka', by rw [hs', if_pos rfl], Or.inl rfl⟩
    · split at hx
      · rename_i e1 e2; subst e2; cases hx
        exact ⟨a, ka', by rw [hs', if_pos rfl], Or.inr hk⟩
      · obtain ⟨q, j, h1, h2⟩ := hw x p k hx
        by_cases c : p = a
        · subst c
          rw [ha] at h1; cases h1
          refine ⟨p, ka', by rw [hs', if_pos rfl], ?_⟩
          rcases h2 with e | e
          · exact Or.inl e
          · right; omega
        · by_cases d : p = b
          · subst d
            rw [hb] at h1; cases h1
            exact ⟨a, kb, by rw [hs', if_neg c, if_pos rfl], h2⟩
          · exact ⟨q, j, by rw [hs', if_neg c, if_neg d]; exact h1, h2⟩
  · intro x r hr
    induction hr with
    | root h1 =>
      rename_i x k1
      by_cases c : x = b
      · subst c
        rw [if_pos rfl]
        exact .up (k := kb) (by rw [hs', if_neg (fun e => hne e.symm), if_pos rfl]) hne hra
      · rw [if_neg c]
        by_cases d : x = a
        · subst d; exact hra
        · exact .root (k := k1) (by rw [hs', if_neg d, if_neg c]; exact h1)
    | up h1 hn hr ih =>
      rename_i x p1 k1 r1
      have c : x ≠ a := by rintro rfl; rw [ha] at h1; cases h1; exact hn rfl
      have d : x ≠ b := by rintro rfl; rw [hb] at h1; cases h1; exact hn rfl
      exact .up (k := k1) (by rw [hs', if_neg c, if_neg d]; exact h1) hn ih

/-! ## The functions -/

/-- Same roots, same length. -/
structure Same (s s' : Subsets) : Prop where
  wf : WF s'
  len : s'.length = s.length
  roots : ∀ x r, RootOf s' x r ↔ RootOf s x r

theorem top_set {s : Subsets} {x p k q : Nat} (h : s[x]? = some (p, k)) : top (s.set x (q, k)) = top s := by
  unfold top
  rw [List.map_set]
  congr 1
  apply List.ext_getElem?
  intro y
  obtain ⟨hlt, hx⟩ := List.getElem?_eq_some_iff.1 h
  rw [getElem?_set_ite (by simpa using hlt)]
  split
  · rename_i e
    subst e
    rw [List.getElem?_map, h]; rfl
  · rfl

theorem rootLoop_gives {s : Subsets} (hw : WF s) {x r : Nat} (h : RootOf s x r) : Run.Gives (Run.loop (rootBody s) x) (· = r) := by
  refine Run.gives_loop (fun y => RootOf s y r) (fun y => top s - ((s[y]?.map Prod.snd).getD 0)) ?_ x h
  intro y hy
  have hlt := hy.lt
  have hg : s[y]? = some (s[y].1, s[y].2) := List.getElem?_eq_getElem hlt
  unfold rootBody
  rw [vget_of_lt hlt, res_bind_ok]
  by_cases c : y = s[y].1
  · right
    refine ⟨y, by simp only [← c, ne_eq, not_true_eq_false, if_false]; rfl, ?_⟩
    exact RootOf.det (.root (by rw [hg]; exact congrArg (fun z => some (z, s[y].2)) c.symm)) hy
  · left
    refine ⟨s[y].1, by rw [if_pos c]; rfl, ?_, ?_⟩
    · cases hy with
      | root h1 => rw [h1] at hg; injection hg with hg; injection hg with hg1 hg2; exact absurd hg1 c
      | up h1 hne hr => rw [h1] at hg; injection hg with hg; injection hg with hg1 hg2; rw [← hg1]; exact hr
    · obtain ⟨q, j, h1, h2⟩ := hw _ _ _ hg
      have := le_top h1
      rw [h1, hg]
      simp only [Option.map_some, Option.getD_some]
      rcases h2 with e | e
      · exact absurd e.symm c
      · omega

theorem pathLoop_gives {s : Subsets} (hw : WF s) {x r : Nat} (h : RootOf s x r) :
    Run.Gives (Run.loop (pathBody r) (s, x)) (Same s) := by
  refine Run.gives_loop (fun st => Same s st.1 ∧ RootOf st.1 st.2 r ∧ top st.1 = top s)
    (fun st => top s - ((st.1[st.2]?.map Prod.snd).getD 0)) ?_ (s, x) ⟨⟨hw, rfl, fun _ _ => Iff.rfl⟩, h, rfl⟩
  rintro ⟨t, y⟩ ⟨hsame, hy, htop⟩
  simp only at hsame hy htop ⊢
  unfold pathBody
  by_cases c : y = r
  · right
    refine ⟨t, by simp only [c, ne_eq, not_true_eq_false, if_false]; rfl, hsame⟩
  · left
    have hlt := hy.lt
    have hg : t[y]? = some (t[y].1, t[y].2) := List.getElem?_eq_getElem hlt
    have hp : RootOf t t[y].1 r := by
      cases hy with
      | root h1 => exact absurd rfl c
      | up h1 hne hr => rw [h1] at hg; injection hg with hg; injection hg with hg1 hg2; rw [← hg1]; exact hr
    have hne : t[y].1 ≠ y := by
      intro e
      rw [e] at hg
      exact c ((RootOf.root hg).det hy)
    have hpl := hp.lt
    have hpg : t[t[y].1]? = some (t[t[y].1].1, t[t[y].1].2) := List.getElem?_eq_getElem hpl
    obtain ⟨w1, w2⟩ := shortcut hsame.wf hp hpg
    refine ⟨(t.set t[y].1 (r, t[t[y].1].2), t[y].1), ?_, ⟨?_, ?_, ?_⟩, ?_⟩
    · simp only [ne_eq, c, not_false_eq_true, if_true]
      rw [vget_of_lt hlt, res_bind_ok, vget_of_lt hpl, res_bind_ok, vset_of_lt hpl, res_bind_ok]; rfl
    · exact ⟨w1, by simp [hsame.len], fun a b => (w2 a b).trans (hsame.roots a b)⟩
    · exact (w2 _ _).2 hp
    · rw [top_set hpg, htop]
    · simp only [getElem?_set_ite hpl, if_true, hg, Option.map_some, Option.getD_some]
      obtain ⟨q, j, h1, h2⟩ := hsame.wf _ _ _ hg
      rw [hpg] at h1
      cases h1
      have := le_top hpg
      rcases h2 with e | e
      · exact absurd e hne
      · omega

theorem find_gives {s : Subsets} (hw : WF s) {x : Nat} (hx : x < s.length) :
    Run.Gives (disjointFind s x) fun o => Same s o.1 ∧ RootOf s x o.2 := by
  obtain ⟨r, hr⟩ := RootOf.exists hw hx
  have hg : s[x]? = some (s[x].1, s[x].2) := List.getElem?_eq_getElem hx
  have hp : RootOf s s[x].1 r := by
    cases hr with
    | root h1 => rw [h1] at hg; injection hg with hg; injection hg with hg1 hg2; rw [← hg1]; exact .root h1
    | up h1 hne hr => rw [h1] at hg; injection hg with hg; injection hg with hg1 hg2; rw [← hg1]; exact hr
  unfold disjointFind
  refine (Run.gives_lift (vget_of_lt hx) (Q := (· = s[x])) rfl).bind ?_
  rintro e rfl
  refine (rootLoop_gives hw hp).bind ?_
  rintro p rfl
  exact (pathLoop_gives hw hr).bind fun t ht => Run.gives_pure ⟨ht, hr⟩

/-- The effect of joining the roots. -/
structure Joined (s s' : Subsets) (a b : Nat) : Prop where
  wf : WF s'
  len : s'.length = s.length
  roots : ∃ c d, (c = a ∧ d = b ∨ c = b ∧ d = a) ∧ ∀ x r, RootOf s x r → RootOf s' x (if r = d then c else r)

theorem hang_ok {s : Subsets} (hw : WF s) {a b ka kb : Nat} (ha : s[a]? = some (a, ka)) (hb : s[b]? = some (b, kb)) :
    ∃ s', hang s a b = .ok s' ∧ Joined s s' a b := by
  obtain ⟨hal, hag⟩ := List.getElem?_eq_some_iff.1 ha
  obtain ⟨hbl, hbg⟩ := List.getElem?_eq_some_iff.1 hb
  unfold hang
  rw [vget_of_lt hal, hag, res_bind_ok, vget_of_lt hbl, hbg, res_bind_ok]
  simp only []
  by_cases c1 : ka < kb
  · have hne : b ≠ a := by rintro rfl; rw [ha] at hb; cases hb; omega
    rw [if_pos c1, vset_of_lt hal]
    refine ⟨_, rfl, ?_⟩
    obtain ⟨m1, m2⟩ := merge hw hb ha hne c1 (Nat.le_refl kb) (s' := s.set a (b, ka)) (by
      intro x
      rw [getElem?_set_ite hal]
      by_cases e1 : x = b
      · subst e1; rw [if_pos rfl, if_neg (fun e => hne e.symm)]; exact hb
      · by_cases e2 : x = a
        · subst e2; rw [if_neg e1, if_pos rfl]
        · rw [if_neg e1, if_neg e2, if_neg (fun e => e2 e.symm)])
    exact ⟨m1, by simp, b, a, Or.inr ⟨rfl, rfl⟩, m2⟩
  · rw [if_neg c1]
    by_cases c2 : ka > kb
    · have hne : a ≠ b := by rintro rfl; rw [ha] at hb; cases hb; omega
      rw [if_pos c2, vset_of_lt hbl]
      refine ⟨_, rfl, ?_⟩
      obtain ⟨m1, m2⟩ := merge hw ha hb hne c2 (Nat.le_refl ka) (s' := s.set b (a, kb)) (by
        intro x
        rw [getElem?_set_ite hbl]
        by_cases e1 : x = a
        · subst e1; rw [if_pos rfl, if_neg (fun e => hne e.symm)]; exact ha
        · by_cases e2 : x = b
          · subst e2; rw [if_neg e1, if_pos rfl]
          · rw [if_neg e1, if_neg e2, if_neg (fun e => e2 e.symm)])
      exact ⟨m1, by simp, a, b, Or.inl ⟨rfl, rfl⟩, m2⟩
    · rw [if_neg c2, vset_of_lt hbl, res_bind_ok]
      have hk : ka = kb := by omega
      subst hk
      have hal' : a < (s.set b (a, ka)).length := by simpa using hal
      have haa : (s.set b (a, ka))[a]? = some (a, ka) := by
        rw [getElem?_set_ite hbl]; split
        · rfl
        · exact ha
      have haa' := (List.getElem?_eq_some_iff.1 haa).2
      rw [vget_of_lt hal', haa', res_bind_ok, vset_of_lt hal']
      refine ⟨_, rfl, ?_⟩
      by_cases hne : a = b
      · subst hne
        -- only the rank of the root grows
        have hs' : ∀ x, ((s.set a (a, ka)).set a (a, ka + 1))[x]? = if x = a then some (a, ka + 1) else s[x]? := by
          intro x
          rw [getElem?_set_ite hal', getElem?_set_ite hal]
          by_cases e : x = a
          · subst e; rw [if_pos rfl, if_pos rfl]
          · rw [if_neg (fun h => e h.symm), if_neg (fun h => e h.symm), if_neg e]
        refine ⟨?_, by simp, a, a, Or.inl ⟨rfl, rfl⟩, ?_⟩
        · intro x p k hx
          rw [hs'] at hx
          split at hx
          · rename_i e; subst e; cases hx
            exact ⟨_, ka + 1, by rw [hs', if_pos rfl], Or.inl rfl⟩
          · obtain ⟨q, j, h1, h2⟩ := hw x p k hx
            by_cases e : p = a
            · subst e
              rw [ha] at h1; cases h1
              exact ⟨p, ka + 1, by rw [hs', if_pos rfl], by rcases h2 with h | h; exacts [Or.inl h, Or.inr (by omega)]⟩
            · exact ⟨q, j, by rw [hs', if_neg e]; exact h1, h2⟩
        · intro x r hr
          have : (if r = a then a else r) = r := by split <;> simp_all
          rw [this]
          induction hr with
          | root h1 =>
            rename_i x k1
            by_cases e : x = a
            · subst e; exact .root (k := ka + 1) (by rw [hs', if_pos rfl])
            · exact .root (k := k1) (by rw [hs', if_neg e]; exact h1)
          | up h1 hn hr ih =>
            rename_i x p1 k1 r1
            have e : x ≠ a := by rintro rfl; rw [ha] at h1; cases h1; exact hn rfl
            exact .up (k := k1) (by rw [hs', if_neg e]; exact h1) hn (ih this)
      · obtain ⟨m1, m2⟩ := merge hw ha hb hne (Nat.lt_succ_self ka) (Nat.le_succ ka) (s' := (s.set b (a, ka)).set a (a, ka + 1)) (by
          intro x
          rw [getElem?_set_ite hal', getElem?_set_ite hbl]
          by_cases e1 : x = a
          · subst e1; rw [if_pos rfl, if_pos rfl]
          · rw [if_neg (fun h => e1 h.symm), if_neg e1]
            by_cases e2 : x = b
            · subst e2; simp
            · rw [if_neg (fun h => e2 h.symm), if_neg e2])
        exact ⟨m1, by simp, a, b, Or.inl ⟨rfl, rfl⟩, m2⟩

/-! ## Connectivity -/

theorem conn_mono {l l' : List (Nat × Nat)} (h : ∀ e ∈ l, e ∈ l') {x y : Nat} (hc : Conn (Pairs l) x y) : Conn (Pairs l') x y :=
  hc.lift fun _ _ hab => Conn.of (h _ hab)

/-- Adding one pair connects through that pair at most once. -/
theorem conn_add {l : List (Nat × Nat)} {a b x y : Nat} (h : Conn (Pairs (l ++ [(a, b)])) x y) :
    Conn (Pairs l) x y ∨ (Conn (Pairs l) x a ∧ Conn (Pairs l) b y) ∨ (Conn (Pairs l) x b ∧ Conn (Pairs l) a y) := by
  have split : ∀ {u v : Nat}, Pairs (l ++ [(a, b)]) u v → Pairs l u v ∨ (u = a ∧ v = b) := by
    intro u v huv
    rcases List.mem_append.1 huv with h | h
    · exact Or.inl h
    · rw [List.mem_singleton] at h; cases h; exact Or.inr ⟨rfl, rfl⟩
  induction h with
  | refl => exact Or.inl (.refl _)
  | fwd _ hr ih =>
    rcases split hr with hr | ⟨rfl, rfl⟩
    · rcases ih with h | ⟨h1, h2⟩ | ⟨h1, h2⟩
      · exact Or.inl (.fwd h hr)
      · exact Or.inr (Or.inl ⟨h1, .fwd h2 hr⟩)
      · exact Or.inr (Or.inr ⟨h1, .fwd h2 hr⟩)
    · rcases ih with h | ⟨h1, -⟩ | ⟨h1, h2⟩
      · exact Or.inr (Or.inl ⟨h, .refl _⟩)
      · exact Or.inr (Or.inl ⟨h1, .refl _⟩)
      · exact Or.inl h1
  | bwd _ hr ih =>
    rcases split hr with hr | ⟨rfl, rfl⟩
    · rcases ih with h | ⟨h1, h2⟩ | ⟨h1, h2⟩
      · exact Or.inl (.bwd h hr)
      · exact Or.inr (Or.inl ⟨h1, .bwd h2 hr⟩)
      · exact Or.inr (Or.inr ⟨h1, .bwd h2 hr⟩)
    · rcases ih with h | ⟨h1, h2⟩ | ⟨h1, -⟩
      · exact Or.inr (Or.inr ⟨h, .refl _⟩)
      · exact Or.inl h1
      · exact Or.inr (Or.inr ⟨h1, .refl _⟩)

/-- The vector represents the partition generated by the pairs. -/
structure Rep (n : Nat) (l : List (Nat × Nat)) (s : Subsets) : Prop where
  wf : WF s
  len : s.length = n
  conn : ∀ x y r r', RootOf s x r → RootOf s y r' → (r = r' ↔ Conn (Pairs l) x y)

theorem Rep.same {n : Nat} {l : List (Nat × Nat)} {s s' : Subsets} (h : Rep n l s) (hs : Same s s') : Rep n l s' :=
  ⟨hs.wf, hs.len.trans h.len, fun x y r r' h1 h2 => h.conn x y r r' ((hs.roots _ _).1 h1) ((hs.roots _ _).1 h2)⟩

theorem Rep.joined {n : Nat} {l : List (Nat × Nat)} {s s' : Subsets} (h : Rep n l s) {u v a b : Nat} (hu : RootOf s u a) (hv : RootOf s v b)
    (hj : Joined s s' a b) : Rep n (l ++ [(u, v)]) s' := by
  obtain ⟨c, d, hcd, hr⟩ := hj.roots
  refine ⟨hj.wf, hj.len.trans h.len, ?_⟩
  intro x y r r' hx hy
  have hxl : x < s.length := by have := hx.lt; rw [hj.len] at this; exact this
  have hyl : y < s.length := by have := hy.lt; rw [hj.len] at this; exact this
  obtain ⟨p, hp⟩ := RootOf.exists h.wf hxl
  obtain ⟨q, hq⟩ := RootOf.exists h.wf hyl
  have e1 := hx.det (hr x p hp)
  have e2 := hy.det (hr y q hq)
  have hsub : ∀ {x y}, Conn (Pairs l) x y → Conn (Pairs (l ++ [(u, v)])) x y := conn_mono fun e he => List.mem_append_left _ he
  have huv : Conn (Pairs (l ++ [(u, v)])) u v := Conn.of (List.mem_append_right _ (by simp))
  constructor
  · intro he
    rw [e1, e2] at he
    -- each root is the old root or one of the two joined
    by_cases c0 : p = q
    · exact hsub ((h.conn x y p q hp hq).1 c0)
    · have hab : (p = a ∧ q = b) ∨ (p = b ∧ q = a) := by
        rcases hcd with ⟨rfl, rfl⟩ | ⟨rfl, rfl⟩ <;> split at he <;> split at he <;> omega
      rcases hab with ⟨rfl, rfl⟩ | ⟨rfl, rfl⟩
      · exact ((hsub ((h.conn x u p p hp hu).1 rfl)).trans huv).trans (hsub ((h.conn v y q q hv hq).1 rfl))
      · exact ((hsub ((h.conn x v p p hp hv).1 rfl)).trans huv.symm).trans (hsub ((h.conn u y q q hu hq).1 rfl))
  · intro hc
    rw [e1, e2]
    rcases conn_add hc with hc | ⟨h1, h2⟩ | ⟨h1, h2⟩
    · rw [(h.conn x y p q hp hq).2 hc]
    · have f1 := (h.conn x u p a hp hu).2 h1
      have f2 := (h.conn v y b q hv hq).2 h2
      subst f1 f2
      rcases hcd with ⟨rfl, rfl⟩ | ⟨rfl, rfl⟩ <;> split <;> split <;> simp_all
    · have f1 := (h.conn x v p b hp hv).2 h1
      have f2 := (h.conn u y a q hu hq).2 h2
      subst f1 f2
      rcases hcd with ⟨rfl, rfl⟩ | ⟨rfl, rfl⟩ <;> split <;> split <;> simp_all

theorem Rep.add_conn {n : Nat} {l : List (Nat × Nat)} {s : Subsets} (h : Rep n l s) {u v : Nat} (hc : Conn (Pairs l) u v) : Rep n (l ++ [(u, v)]) s := by
  refine ⟨h.wf, h.len, fun x y r r' hx hy => (h.conn x y r r' hx hy).trans ⟨conn_mono fun e he => List.mem_append_left _ he, ?_⟩⟩
  intro hxy
  rcases conn_add hxy with hxy | ⟨h1, h2⟩ | ⟨h1, h2⟩
  · exact hxy
  · exact (h1.trans hc).trans h2
  · exact (h1.trans hc.symm).trans h2

theorem rep_singletons (n : Nat) : Rep n [] (singletons n) := by
  have hg : ∀ x p k : Nat, (singletons n)[x]? = some (p, k) → p = x := by
    intro x p k h
    unfold singletons at h
    rw [List.getElem?_map] at h
    rcases hx : (List.range n)[x]? with _ | y
    · rw [hx] at h; cases h
    · rw [hx] at h
      have := List.getElem?_eq_some_iff.1 hx
      obtain ⟨h1, h2⟩ := this
      rw [List.getElem_range] at h2
      simp at h
      omega
  have hroot : ∀ x r, RootOf (singletons n) x r → r = x := by
    intro x r h
    cases h with
    | root => rfl
    | up h1 hne _ => exact absurd (hg _ _ _ h1) hne
  refine ⟨?_, by simp [singletons], ?_⟩
  · intro x p k h
    have := hg x p k h
    subst this
    exact ⟨p, k, h, Or.inl rfl⟩
  · intro x y r r' hx hy
    rw [hroot x r hx, hroot y r' hy]
    constructor
    · rintro rfl; exact .refl _
    · intro h
      exact h.const (fun z => z) fun a b hab => by simp [Pairs] at hab

theorem union_gives {n : Nat} {l : List (Nat × Nat)} {s : Subsets} (h : Rep n l s) {u v : Nat} (hu : u < n) (hv : v < n) :
    Run.Gives (disjointUnion s u v) (Rep n (l ++ [(u, v)])) := by
  unfold disjointUnion
  refine (find_gives h.wf (by rw [h.len]; exact hu)).bind ?_
  rintro ⟨s1, a⟩ ⟨hs1, ha⟩
  simp only at hs1 ha ⊢
  refine (find_gives hs1.wf (by rw [hs1.len, h.len]; exact hv)).bind ?_
  rintro ⟨s2, b⟩ ⟨hs2, hb⟩
  simp only at hs2 hb ⊢
  have hr2 : Rep n l s2 := (h.same hs1).same hs2
  have hau : RootOf s2 u a := (hs2.roots _ _).2 ((hs1.roots _ _).2 ha)
  have hbv : RootOf s2 v b := (hs2.roots _ _).2 hb
  obtain ⟨ka, hka⟩ := hau.isRoot
  obtain ⟨kb, hkb⟩ := hbv.isRoot
  obtain ⟨s3, h3, hj⟩ := hang_ok hr2.wf hka hkb
  exact Run.gives_lift h3 (hr2.joined hau hbv hj)

theorem unionFind_gives {n : Nat} {l : List (Nat × Nat)} {s : Subsets} (h : Rep n l s) {u v : Nat} (hu : u < n) (hv : v < n) :
    Run.Gives (disjointUnionFind s u v) fun o => Rep n (l ++ [(u, v)]) o.1 ∧ (o.2 = true ↔ ¬ Conn (Pairs l) u v) := by
  unfold disjointUnionFind
  refine (find_gives h.wf (by rw [h.len]; exact hu)).bind ?_
  rintro ⟨s1, a⟩ ⟨hs1, ha⟩
  simp only at hs1 ha ⊢
  refine (find_gives hs1.wf (by rw [hs1.len, h.len]; exact hv)).bind ?_
  rintro ⟨s2, b⟩ ⟨hs2, hb⟩
  simp only at hs2 hb ⊢
  have hr2 : Rep n l s2 := (h.same hs1).same hs2
  have hau : RootOf s2 u a := (hs2.roots _ _).2 ((hs1.roots _ _).2 ha)
  have hbv : RootOf s2 v b := (hs2.roots _ _).2 hb
  obtain ⟨ka, hka⟩ := hau.isRoot
  obtain ⟨kb, hkb⟩ := hbv.isRoot
  by_cases c : a = b
  · rw [if_neg (by simpa using c)]
    have hc := (hr2.conn u v a b hau hbv).1 c
    exact Run.gives_pure ⟨hr2.add_conn hc, by simp [hc]⟩
  · rw [if_pos c]
    obtain ⟨s3, h3, hj⟩ := hang_ok hr2.wf hka hkb
    refine (Run.gives_lift h3 (Q := (· = s3)) rfl).bind ?_
    rintro s4 rfl
    refine Run.gives_pure ⟨hr2.joined hau hbv hj, ?_⟩
    have := hr2.conn u v a b hau hbv
    simp only [true_iff]
    exact fun hc => c (this.2 hc)

end NW.Dsu
