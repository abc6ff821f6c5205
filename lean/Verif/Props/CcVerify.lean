import Verif.Model.CcVerify
import Verif.Spec.Components
import Verif.Lemmas.ListRes
import Mathlib.Data.List.Perm.Subperm
import Mathlib.Data.List.Nodup

/-! # Property C43: the component verifier -/

namespace NW.CcVerify
open Spec

variable {α : Type}

/-- What the caller provides: in-range neighbours, a label for every vertex, and, for directed graphs, the transpose. -/
structure Input (g t : Rows α) (comp : List Nat) : Prop where
  range : InRange g
  labels : g.length ≤ comp.length
  second : (t = [] ∧ ∀ u v, Edge g u v → Edge g v u) ∨ IsTranspose g t

theorem Input.tedge {g t : Rows α} {comp : List Nat} (h : Input g t comp) {u v : Nat} (he : Edge t u v) : Edge g v u := by
  rcases h.second with ⟨rfl, -⟩ | ⟨-, h2⟩
  · simp [Edge, nbrs] at he
  · exact (h2 u v).1 he

theorem Input.back {g t : Rows α} {comp : List Nat} (h : Input g t comp) {u v : Nat} (he : Edge g v u) : Edge g u v ∨ Edge t u v := by
  rcases h.second with ⟨rfl, h2⟩ | ⟨-, h2⟩
  · exact Or.inl (h2 v u he)
  · exact Or.inr ((h2 u v).2 he)

theorem labelMap_ok {comp : List Nat} {n : Nat} (h : n ≤ comp.length) :
    ∃ m, labelMap comp n = .ok m ∧ (∀ l s, (l, s) ∈ m → s < n ∧ comp[s]? = some l) ∧ ∀ v, v < n → ∃ s, ∃ l, comp[v]? = some l ∧ (l, s) ∈ m := by
  have key : ∀ k, k ≤ n → ∃ m, labelMap comp k = .ok m ∧ (∀ l s, (l, s) ∈ m → s < k ∧ comp[s]? = some l) ∧
      ∀ v, v < k → ∃ s, ∃ l, comp[v]? = some l ∧ (l, s) ∈ m := by
    intro k
    induction k with
    | zero => intro _; exact ⟨[], rfl, by simp, by simp⟩
    | succ k ih =>
      intro hk
      obtain ⟨m, h1, h2, h3⟩ := ih (by omega)
      have hlt : k < comp.length := by omega
      refine ⟨insert m comp[k] k, ?_, ?_, ?_⟩
      · unfold labelMap at h1 ⊢
        rw [List.range_succ, List.foldlM_append, h1, res_bind_ok, List.foldlM_cons, vget_of_lt hlt]
        rfl
      · intro l s hs
        unfold insert at hs
        rcases List.mem_append.1 hs with hs | hs
        · have := h2 l s (List.mem_of_mem_filter hs)
          exact ⟨by omega, this.2⟩
        · simp only [List.mem_singleton, Prod.mk.injEq] at hs
          obtain ⟨rfl, rfl⟩ := hs
          exact ⟨by omega, List.getElem?_eq_getElem hlt⟩
      · intro v hv
        have hvl : v < comp.length := by omega
        by_cases hc : comp[v] = comp[k]
        · exact ⟨k, comp[k], by rw [← hc]; exact List.getElem?_eq_getElem hvl, by simp [insert]⟩
        · have hvk : v < k := by
            have : v ≠ k := by rintro rfl; exact hc rfl
            omega
          obtain ⟨s, l, k1, k2⟩ := h3 v hvk
          rw [List.getElem?_eq_getElem hvl] at k1
          cases k1
          refine ⟨s, comp[v], List.getElem?_eq_getElem hvl, ?_⟩
          unfold insert
          rw [List.mem_append]; left
          rw [List.mem_filter]
          exact ⟨k2, by simpa using hc⟩
  exact key n (Nat.le_refl _)

theorem labelMap_unique {comp : List Nat} {n : Nat} {m : List (Nat × Nat)} (h : labelMap comp n = .ok m) {l s s' : Nat} (h1 : (l, s) ∈ m)
    (h2 : (l, s') ∈ m) : s = s' := by
  have key : ∀ (vs : List Nat) (m0 m : List (Nat × Nat)), (∀ l s s', (l, s) ∈ m0 → (l, s') ∈ m0 → s = s') →
      vs.foldlM (init := m0) (fun m v => do let l ← vget comp v; return insert m l v) = .ok m → ∀ l s s', (l, s) ∈ m → (l, s') ∈ m → s = s' := by
    intro vs
    induction vs with
    | nil => intro m0 m h0 hm; cases hm; exact h0
    | cons v vs ih =>
      intro m0 m h0 hm
      rw [List.foldlM_cons] at hm
      cases hv : vget comp v with
      | error f => rw [hv] at hm; cases hm
      | ok c =>
        rw [hv] at hm
        refine ih (insert m0 c v) m ?_ hm
        intro l s s' a b
        unfold insert at a b
        simp only [List.mem_append, List.mem_filter, List.mem_singleton, Prod.mk.injEq, decide_eq_true_eq] at a b
        rcases a with ⟨a1, a2⟩ | ⟨a1, a2⟩
        · rcases b with ⟨b1, -⟩ | ⟨b1, b2⟩
          · exact h0 l s s' a1 b1
          · exact absurd b1 a2
        · rcases b with ⟨b1, b2⟩ | ⟨b1, b2⟩
          · exact absurd a1 b2
          · rw [a2, b2]
  exact key _ [] m (by simp) h l s s' h1 h2

/-- Vertex `x` has been visited. -/
def Vis (vis : List Bool) (x : Nat) : Prop := vis[x]? = some true

theorem vis_set {vis : List Bool} {v x : Nat} (hv : v < vis.length) : Vis (vis.set v true) x ↔ x = v ∨ Vis vis x := by
  unfold Vis
  rw [List.getElem?_set]
  by_cases c : v = x
  · subst c; simp [hv]
  · have : x ≠ v := fun e => c e.symm
    simp [c, this]

theorem length_le_of_nodup {l : List Nat} {n : Nat} (h : l.Nodup) (hl : ∀ x ∈ l, x < n) : l.length ≤ n := by
  have : l.Subperm (List.range n) := List.subperm_of_subset h fun x hx => List.mem_range.2 (hl x hx)
  simpa using this.length_le

/-- The part of the invariant kept while scanning neighbours. -/
structure Inv (E : Nat → Nat → Prop) (n slots : Nat) (comp : List Nat) (label src : Nat) (vis : List Bool) (front : List Nat) : Prop where
  len : vis.length = slots
  small : ∀ x, Vis vis x → x < n
  nodup : front.Nodup
  mem : ∀ x ∈ front, Vis vis x ∧ comp[x]? = some label ∧ Conn E x src

theorem scan_spec {E : Nat → Nat → Prop} {n slots cap : Nat} {comp : List Nat} {label src u : Nat} (hn : n ≤ slots) (hcap : n ≤ cap)
    (hcomp : n ≤ comp.length) (hu : Conn E u src) (row : List Nat) (hrow : ∀ v ∈ row, v < n ∧ Conn E v u) {vis : List Bool} {front : List Nat}
    (h : Inv E n slots comp label src vis front) :
    (scan comp cap label row vis front = .ok none ∧ ∃ v ∈ row, comp[v]? ≠ some label) ∨
    ∃ vis' front', scan comp cap label row vis front = .ok (some (vis', front ++ front')) ∧ Inv E n slots comp label src vis' (front ++ front') ∧
      (∀ x, Vis vis' x ↔ Vis vis x ∨ x ∈ front') ∧ ∀ v ∈ row, Vis vis' v ∧ comp[v]? = some label := by
  induction row generalizing vis front with
  | nil => exact Or.inr ⟨vis, [], by simp [scan], by simpa using h, by simp, by simp⟩
  | cons v vs ih =>
    obtain ⟨hv, hconn⟩ := hrow v (by simp)
    have hvl : v < comp.length := by omega
    have hvv : v < vis.length := by rw [h.len]; omega
    unfold scan
    rw [vget_of_lt hvl, res_bind_ok]
    by_cases c : comp[v] ≠ label
    · rw [if_pos c]
      refine Or.inl ⟨rfl, v, by simp, ?_⟩
      rw [List.getElem?_eq_getElem hvl]
      intro e; cases e; exact c rfl
    · have c : comp[v] = label := by omega
      have hlab : comp[v]? = some label := by rw [List.getElem?_eq_getElem hvl, c]
      rw [if_neg (by simpa using c), vget_of_lt hvv, res_bind_ok]
      cases hb : vis[v] with
      | true =>
        rw [if_pos rfl]
        have hvis : Vis vis v := by unfold Vis; rw [List.getElem?_eq_getElem hvv, hb]
        rcases ih (fun x hx => hrow x (by simp [hx])) h with ⟨k1, w, k2, k3⟩ | ⟨vis', front', k1, k2, k3, k4⟩
        · exact Or.inl ⟨k1, w, by simp [k2], k3⟩
        · refine Or.inr ⟨vis', front', k1, k2, k3, fun w hw => ?_⟩
          rcases List.mem_cons.1 hw with rfl | hw
          · exact ⟨(k3 w).2 (Or.inl hvis), hlab⟩
          · exact k4 w hw
      | false =>
        have hnv : ¬ Vis vis v := by unfold Vis; rw [List.getElem?_eq_getElem hvv, hb]; simp
        have hnf : v ∉ front := fun hm => hnv (h.mem v hm).1
        have hnod : (front ++ [v]).Nodup := by
          rw [List.nodup_append]
          exact ⟨h.nodup, by simp, fun a ha b hb' => by
            rw [List.mem_singleton] at hb'; subst hb'; rintro rfl; exact hnf ha⟩
        have hsmall : ∀ x ∈ front ++ [v], x < n := by
          intro x hx
          rcases List.mem_append.1 hx with hx | hx
          · exact h.small x (h.mem x hx).1
          · rw [List.mem_singleton] at hx; subst hx; exact hv
        have hlen := length_le_of_nodup hnod hsmall
        rw [List.length_append, List.length_singleton] at hlen
        have hinv : Inv E n slots comp label src (vis.set v true) (front ++ [v]) := by
          refine ⟨by simp [h.len], ?_, hnod, ?_⟩
          · intro x hx
            rcases (vis_set hvv).1 hx with rfl | hx
            · exact hv
            · exact h.small x hx
          · intro x hx
            rcases List.mem_append.1 hx with hx | hx
            · have := h.mem x hx
              exact ⟨(vis_set hvv).2 (Or.inr this.1), this.2⟩
            · rw [List.mem_singleton] at hx; subst hx
              exact ⟨(vis_set hvv).2 (Or.inl rfl), hlab, hconn.trans hu⟩
        rw [if_neg (by simp), vset_of_lt hvv, res_bind_ok]
        rw [if_pos (show front.length < cap by omega)]
        rcases ih (fun x hx => hrow x (by simp [hx])) hinv with ⟨k1, w, k2, k3⟩ | ⟨vis', front', k1, k2, k3, k4⟩
        · exact Or.inl ⟨k1, w, by simp [k2], k3⟩
        · refine Or.inr ⟨vis', v :: front', by rw [k1]; simp, by simpa using k2, fun x => ?_, fun w hw => ?_⟩
          · rw [k3, vis_set hvv, List.mem_cons]
            tauto
          · rcases List.mem_cons.1 hw with rfl | hw
            · exact ⟨(k3 w).2 (Or.inl ((vis_set hvv).2 (Or.inl rfl))), hlab⟩
            · exact k4 w hw

/-- All neighbours of `x`, in either direction, have been visited and carry its label. -/
def Explored (E : Nat → Nat → Prop) (comp : List Nat) (vis : List Bool) (x : Nat) : Prop :=
  ∀ y, E x y ∨ E y x → Vis vis y ∧ comp[y]? = comp[x]?

theorem Explored.mono {E : Nat → Nat → Prop} {comp : List Nat} {vis vis' : List Bool} {x : Nat} (h : Explored E comp vis x)
    (hm : ∀ y, Vis vis y → Vis vis' y) : Explored E comp vis' x := fun y hy => ⟨hm y (h y hy).1, (h y hy).2⟩

structure SInv (E : Nat → Nat → Prop) (n slots : Nat) (comp : List Nat) (order : List (Nat × Nat)) (s : State) : Prop where
  inv : ∃ src, Inv E n slots comp s.label src s.vis s.front ∧ (s.front ≠ [] → (s.label, src) ∈ order)
  pos : s.k ≤ s.front.length
  explored : ∀ x, Vis s.vis x → Explored E comp s.vis x ∨ x ∈ s.front.drop s.k
  sources : ∀ e ∈ order, e ∈ s.todo ∨ Vis s.vis e.2
  sub : ∀ e ∈ s.todo, e ∈ order
  origin : ∀ x, Vis s.vis x → ∃ e ∈ order, comp[x]? = some e.1 ∧ Conn E x e.2

theorem body_spec {g t : Rows α} {comp : List Nat} (hin : Input g t comp) {slots : Nat} (hslots : g.length ≤ slots) {order : List (Nat × Nat)}
    (horder : ∀ l s, (l, s) ∈ order → s < g.length ∧ comp[s]? = some l) {s : State} (h : SInv (Edge g) g.length slots comp order s) :
    (∃ s', body g t comp s = .ok (.inl s') ∧ SInv (Edge g) g.length slots comp order s' ∧
      Prod.Lex (· < ·) (· < ·) (s'.todo.length, g.length + 1 - s'.k) (s.todo.length, g.length + 1 - s.k)) ∨
    (body g t comp s = .ok (.inr false) ∧ ∃ u v, Edge g u v ∧ u < g.length ∧ v < g.length ∧ comp[u]? ≠ comp[v]?) ∨
    (body g t comp s = .ok (.inr (s.vis.all id)) ∧ s.todo = [] ∧ s.front.length ≤ s.k) := by
  obtain ⟨vis, todo, label, front, k⟩ := s
  obtain ⟨⟨src, hinv, hsrc⟩, hpos, hexp, hsources, hsub, horig⟩ := h
  simp only at hinv hsrc hpos hexp hsources hsub horig
  unfold body
  simp only
  by_cases c : k < front.length
  · rw [if_pos c, vget_of_lt c, res_bind_ok]
    have hmemu : front[k] ∈ front := List.getElem_mem c
    obtain ⟨hvu, hlu, hcu⟩ := hinv.mem _ hmemu
    have hun := hinv.small _ hvu
    generalize hu : front[k] = u at *
    have hlab : ∀ {v : Nat}, comp[v]? ≠ some label → comp[v]? ≠ comp[u]? := by
      intro v hv; rw [hlu]; exact hv
    have hrow : vget g u = .ok (g.getD u []) := by
      rw [vget_of_lt hun, List.getD_eq_getElem?_getD, List.getElem?_eq_getElem hun]; rfl
    have hnb : ∀ v ∈ (g.getD u []).map Prod.fst, Edge g u v := fun v hv => hv
    have hlenFront := length_le_of_nodup hinv.nodup fun x hx => hinv.small x (hinv.mem x hx).1
    have hsrc' := hsrc (by rintro rfl; simp at c)
    rw [hrow, res_bind_ok]
    rcases scan_spec (cap := g.length + 1) hslots (by omega) hin.labels hcu ((g.getD u []).map Prod.fst)
        (fun v hv => ⟨hin.range u v (hnb v hv), (Conn.of (hnb v hv)).symm⟩) hinv with ⟨k1, v, k2, k3⟩ | ⟨vis1, front1, k1, k2, k3, k4⟩
    · right; left
      rw [k1, res_bind_ok]
      exact ⟨rfl, u, v, hnb v k2, hun, hin.range u v (hnb v k2), fun e => hlab k3 e.symm⟩
    · rw [k1, res_bind_ok]
      simp only
      -- the state after both scans
      have finish : ∀ vis2 front2, Inv (Edge g) g.length slots comp label src vis2 (front ++ front2) → (∀ x, Vis vis2 x ↔ Vis vis x ∨ x ∈ front2) →
          (∀ y, Edge g u y ∨ Edge g y u → Vis vis2 y ∧ comp[y]? = some label) →
          SInv (Edge g) g.length slots comp order ⟨vis2, todo, label, front ++ front2, k + 1⟩ ∧
          Prod.Lex (· < ·) (· < ·) (todo.length, g.length + 1 - (k + 1)) (todo.length, g.length + 1 - k) := by
        intro vis2 front2 m1 m2 m3
        refine ⟨⟨⟨src, m1, fun _ => hsrc'⟩, ?_, ?_, ?_, hsub, ?_⟩, Prod.Lex.right _ (by omega)⟩
        · simp only [List.length_append]; omega
        · intro x hx
          simp only
          rw [List.drop_append_of_le_length (by omega)]
          rcases (m2 x).1 hx with hx | hx
          · rcases hexp x hx with hx | hx
            · exact Or.inl (hx.mono fun y hy => (m2 y).2 (Or.inl hy))
            · rw [List.drop_eq_getElem_cons c] at hx
              rcases List.mem_cons.1 hx with hx | hx
              · rw [hu] at hx
                subst hx
                exact Or.inl fun y hy => ⟨(m3 y hy).1, by rw [hlu]; exact (m3 y hy).2⟩
              · exact Or.inr (List.mem_append.2 (Or.inl hx))
          · exact Or.inr (List.mem_append.2 (Or.inr hx))
        · intro e he
          rcases hsources e he with hx | hx
          · exact Or.inl hx
          · exact Or.inr ((m2 _).2 (Or.inl hx))
        · intro x hx
          rcases (m2 x).1 hx with hx | hx
          · exact horig x hx
          · have := m1.mem x (List.mem_append.2 (Or.inr hx))
            exact ⟨(label, src), hsrc', this.2⟩
      by_cases ct : u < t.length
      · rw [if_pos ct]
        have htrow : vget t u = .ok (t.getD u []) := by
          rw [vget_of_lt ct, List.getD_eq_getElem?_getD, List.getElem?_eq_getElem ct]; rfl
        have htn : ∀ v ∈ (t.getD u []).map Prod.fst, Edge g v u := fun v hv => hin.tedge hv
        rw [htrow, res_bind_ok]
        rcases scan_spec (cap := g.length + 1) hslots (by omega) hin.labels hcu ((t.getD u []).map Prod.fst)
            (fun v hv => ⟨(htn v hv).src_lt, Conn.of (htn v hv)⟩) k2 with ⟨m1, v, m2, m3⟩ | ⟨vis2, front2, m1, m2, m3, m4⟩
        · right; left
          rw [m1, res_bind_ok]
          exact ⟨rfl, v, u, htn v m2, (htn v m2).src_lt, hun, hlab m3⟩
        · left
          rw [m1, res_bind_ok]
          simp only [List.append_assoc] at m1 m2 ⊢
          refine ⟨_, rfl, finish vis2 (front1 ++ front2) m2 (fun x => by rw [m3, k3, List.mem_append, or_assoc]) fun y hy => ?_⟩
          have hfirst : Edge g u y → Vis vis2 y ∧ comp[y]? = some label := fun hy =>
            ⟨(m3 y).2 (Or.inl (k4 y hy).1), (k4 y hy).2⟩
          rcases hy with hy | hy
          · exact hfirst hy
          · rcases hin.back hy with hy | hy
            · exact hfirst hy
            · exact m4 y hy
      · rw [if_neg ct]
        left
        refine ⟨_, rfl, finish vis1 front1 k2 k3 fun y hy => ?_⟩
        rcases hy with hy | hy
        · exact k4 y hy
        · rcases hin.back hy with hy | hy
          · exact k4 y hy
          · exact absurd hy.src_lt ct
  · rw [if_neg c]
    cases todo with
    | nil => exact Or.inr (Or.inr ⟨rfl, rfl, by omega⟩)
    | cons e rest =>
      obtain ⟨l, src'⟩ := e
      obtain ⟨hs1, hs2⟩ := horder l src' (hsub _ (by simp))
      have hsl : src' < vis.length := by rw [hinv.len]; omega
      left
      simp only
      rw [vset_of_lt hsl, res_bind_ok]
      refine ⟨_, rfl, ⟨⟨src', ⟨by simp [hinv.len], ?_, by simp, ?_⟩, fun _ => hsub _ (by simp)⟩, by simp, ?_, ?_, fun e he => hsub e (by simp [he]), ?_⟩,
        Prod.Lex.left _ _ (by simp)⟩
      · intro x hx
        rcases (vis_set hsl).1 hx with rfl | hx
        · exact hs1
        · exact hinv.small x hx
      · intro x hx
        rw [List.mem_singleton] at hx; subst hx
        exact ⟨(vis_set hsl).2 (Or.inl rfl), hs2, .refl _⟩
      · intro x hx
        rcases (vis_set hsl).1 hx with rfl | hx
        · exact Or.inr (by simp)
        · rcases hexp x hx with hx | hx
          · exact Or.inl (hx.mono fun y hy => (vis_set hsl).2 (Or.inr hy))
          · rw [List.drop_of_length_le (by omega)] at hx
            cases hx
      · intro e he
        rcases hsources e he with hx | hx
        · rcases List.mem_cons.1 hx with rfl | hx
          · exact Or.inr ((vis_set hsl).2 (Or.inl rfl))
          · exact Or.inl hx
        · exact Or.inr ((vis_set hsl).2 (Or.inr hx))
      · intro x hx
        rcases (vis_set hsl).1 hx with rfl | hx
        · exact ⟨(l, x), hsub _ (by simp), hs2, .refl _⟩
        · exact horig x hx

theorem lex_wf : WellFounded (Prod.Lex (· < ·) (· < ·) : Nat × Nat → Nat × Nat → Prop) := (Prod.lex Nat.lt_wfRel Nat.lt_wfRel).wf

/-- The search ends, for every order of the labels. -/
theorem search_spec {g t : Rows α} {comp : List Nat} (hin : Input g t comp) {slots : Nat} (hslots : g.length ≤ slots) {m order : List (Nat × Nat)}
    (hm : labelMap comp g.length = .ok m) (hperm : order.Perm m) :
    ∃ r, Search slots g t comp order (.ok r) ∧ (slots = g.length → (r = true ↔ ComponentLabels (Edge g) g.length comp)) ∧
      (g.length < slots → r = false) := by
  obtain ⟨m', h1, h2, h3⟩ := labelMap_ok hin.labels
  rw [hm] at h1; cases h1
  have horder : ∀ l s, (l, s) ∈ order → s < g.length ∧ comp[s]? = some l := fun l s h => h2 l s (hperm.mem_iff.1 h)
  have hinit : SInv (Edge g) g.length slots comp order ⟨List.replicate slots false, order, 0, [], 0⟩ := by
    have hno : ∀ x, ¬ Vis (List.replicate slots false) x := by
      intro x hx
      have := List.mem_of_getElem? hx
      simp at this
    exact ⟨⟨0, ⟨by simp, fun x hx => absurd hx (hno x), by simp, by simp⟩, fun h => absurd rfl h⟩, Nat.le_refl _, fun x hx => absurd hx (hno x),
      fun e he => Or.inl he, fun e he => he, fun x hx => absurd hx (hno x)⟩
  obtain ⟨s', r, k1, k2, k3⟩ := Loop.totalWf (body := body g t comp) (SInv (Edge g) g.length slots comp order)
    (fun s => (s.todo.length, g.length + 1 - s.k)) lex_wf (fun s hs => by
      rcases body_spec hin hslots horder hs with k | ⟨k, -⟩ | ⟨k, -⟩
      · exact Or.inl k
      · exact Or.inr ⟨_, k⟩
      · exact Or.inr ⟨_, k⟩) _ hinit
  refine ⟨r, k3, ?_⟩
  rcases body_spec hin hslots horder k1 with ⟨_, k, -⟩ | ⟨k, u, v, he, hu, hv, hne⟩ | ⟨k, ht, hf⟩
  · rw [k] at k2; cases k2
  · rw [k] at k2; cases k2
    refine ⟨fun _ => ⟨fun h => Bool.noConfusion h, fun h => ?_⟩, fun _ => rfl⟩
    exact absurd ((h.2 u v hu hv).2 (.of he)) hne
  · rw [k] at k2; cases k2
    obtain ⟨src, hinv, -⟩ := k1.inv
    have hexp : ∀ x, Vis s'.vis x → Explored (Edge g) comp s'.vis x := by
      intro x hx
      rcases k1.explored x hx with h | h
      · exact h
      · rw [List.drop_of_length_le hf] at h; cases h
    have hall : s'.vis.all id = true ↔ ∀ x, x < slots → Vis s'.vis x := by
      rw [List.all_eq_true]
      constructor
      · intro h x hx
        have hx' : x < s'.vis.length := by rw [hinv.len]; exact hx
        have := h _ (List.getElem_mem hx')
        unfold Vis
        rw [List.getElem?_eq_getElem hx']
        simpa using this
      · intro h b hb
        obtain ⟨i, hi, rfl⟩ := List.getElem_of_mem hb
        have := h i (by rw [← hinv.len]; exact hi)
        unfold Vis at this
        rw [List.getElem?_eq_getElem hi] at this
        simpa using this
    constructor
    · rintro hs
      rw [hall, hs]
      constructor
      · intro h
        refine ⟨hin.labels, fun x y hx hy => ⟨fun he => ?_, fun hc => ?_⟩⟩
        · obtain ⟨⟨l, s⟩, e1, e2, e3⟩ := k1.origin x (h x hx)
          obtain ⟨⟨l', s''⟩, f1, f2, f3⟩ := k1.origin y (h y hy)
          simp only at e2 e3 f2 f3
          have : l = l' := by rw [e2, f2] at he; exact Option.some.inj he
          subst this
          -- the two searches started at the same place, as the label map has one source per label
          have hss : s = s'' := by
            have a := (hperm.mem_iff.1 e1)
            have b := (hperm.mem_iff.1 f1)
            exact labelMap_unique hm a b
          subst hss
          exact e3.trans f3.symm
        · have hx' : ∀ z, Conn (Edge g) x z → Vis s'.vis z ∧ comp[z]? = comp[x]? := by
            intro z hz
            induction hz with
            | refl => exact ⟨h x hx, rfl⟩
            | fwd _ hr ih => 
              obtain ⟨a, b⟩ := hexp _ ih.1 _ (Or.inl hr)
              exact ⟨a, b.trans ih.2⟩
            | bwd _ hr ih =>
              obtain ⟨a, b⟩ := hexp _ ih.1 _ (Or.inr hr)
              exact ⟨a, b.trans ih.2⟩
          exact (hx' y hc).2.symm
      · intro h x hx
        obtain ⟨s, l, e1, e2⟩ := h3 x hx
        have e3 := hperm.mem_iff.2 e2
        obtain ⟨f1, f2⟩ := h2 l s e2
        have hc : Conn (Edge g) s x := (h.2 s x f1 hx).1 (by rw [e1, f2])
        have hvs : Vis s'.vis s := by
          rcases k1.sources _ e3 with h' | h'
          · rw [ht] at h'; cases h'
          · exact h'
        clear e1 f2 e2 e3
        clear hx
        induction hc with
        | refl => exact hvs
        | fwd _ hr ih => exact (hexp _ ih _ (Or.inl hr)).1
        | bwd _ hr ih => exact (hexp _ ih _ (Or.inr hr)).1
    · intro hs
      cases hb : s'.vis.all id with
      | false => rfl
      | true =>
        have := hinv.small _ (hall.1 hb g.length hs)
        omega

/-- C43, negative part.  For every graph and every label array, `CCVerifier` returns false: its last `visited` entry belongs to no vertex. -/
theorem ccVerifier_always_false (g t : Rows α) (comp : List Nat) (hin : Input g t comp) :
    Verify g t comp (.ok false) ∧ ∀ o, Verify g t comp o → o = .ok false := by
  obtain ⟨m, h1, -⟩ := labelMap_ok hin.labels
  constructor
  · obtain ⟨r, k1, -, k2⟩ := search_spec hin (slots := g.length + 1) (by omega) h1 (List.Perm.refl m)
    rw [k2 (by omega)] at k1
    exact Or.inl ⟨m, m, h1, .refl _, k1⟩
  · rintro o (⟨m', order, e1, e2, e3⟩ | ⟨f, e1, -⟩)
    · obtain ⟨r, k1, -, k2⟩ := search_spec hin (slots := g.length + 1) (by omega) e1 e2
      rw [k2 (by omega)] at k1
      exact e3.det k1
    · rw [h1] at e1; cases e1

/-- C43, positive part.  With one `visited` entry per vertex instead of one more, the search accepts exactly the label arrays that give equal labels
precisely to connected vertices, whatever the order in which the labels are searched.  Missing from the full statement: the code has one entry too many
(`ccVerifier_always_false`). -/
theorem ccVerifier_partial (g t : Rows α) (comp : List Nat) (hin : Input g t comp) :
    ∃ m, labelMap comp g.length = .ok m ∧ ∀ order, order.Perm m → ∃ r, Search g.length g t comp order (.ok r) ∧
      (∀ o, Search g.length g t comp order o → o = .ok r) ∧ (r = true ↔ ComponentLabels (Edge g) g.length comp) := by
  obtain ⟨m, h1, -⟩ := labelMap_ok hin.labels
  refine ⟨m, h1, fun order ho => ?_⟩
  obtain ⟨r, k1, k2, -⟩ := search_spec hin (slots := g.length) (Nat.le_refl _) h1 ho
  exact ⟨r, k1, fun o h => h.det k1, k2 rfl⟩

/-! ## The hypotheses can be met: 0 – 1 – 2 and 3 – 4 with correct labels -/

def exG : Rows Unit := [[(1, ())], [(0, ()), (2, ())], [(1, ())], [(4, ())], [(3, ())]]

theorem exG_input (comp : List Nat) (h : 5 ≤ comp.length) : Input exG [] comp := by
  refine ⟨by decide, h, Or.inl ⟨rfl, fun u v he => ?_⟩⟩
  have : ∀ u < 5, ∀ v ∈ nbrs exG u, Edge exG v u := by decide
  exact this u he.src_lt v he

example : Verify exG [] [0, 0, 0, 3, 3, 5] (.ok false) := (ccVerifier_always_false exG [] _ (exG_input _ (by decide))).1

example : Search 5 exG [] [0, 0, 0, 3, 3, 5] [(3, 4), (0, 2)] (.ok true) := Loop.of_runFuel (n := 20) (by decide)

example : Search 5 exG [] [0, 0, 0, 0, 0, 5] [(0, 4)] (.ok false) := Loop.of_runFuel (n := 20) (by decide)

end NW.CcVerify
