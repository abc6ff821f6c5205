import Verif.Model.KCore
import Mathlib.Tactic.Common

/-! # Properties: k_core (C79) -/

namespace NW.KCore

/-- The neighbours of a vertex. -/
def nbrs (g : Csr) (v : Nat) : List Nat := (g.col.drop (g.ix.getD v 0)).take (g.ix.getD (v + 1) 0 - g.ix.getD v 0)

/-- Every vertex of `S` has at least `k` neighbours in `S`. -/
def Dense (g : Csr) (k : Nat) (S : List Nat) : Prop := ∀ v ∈ S, v + 1 < g.ix.length ∧ k ≤ ((nbrs g v).filter (· ∈ S)).length

/-- The k-core: the largest set of vertices with that property. -/
def IsKCore (g : Csr) (k : Nat) (S : List Nat) : Prop := S.Nodup ∧ Dense g k S ∧ ∀ T, Dense g k T → ∀ v ∈ T, v ∈ S

/-- The result `(removed, n)` describes the k-core: `n` is its size, and the removed edges are those with an end outside it. -/
def Describes (g : Csr) (k : Nat) (r : List (Nat × Nat) × Nat) : Prop :=
  ∃ S, IsKCore g k S ∧ r.2 = S.length ∧ ∀ e, e ∈ r.1 ↔ ∃ v w, w ∈ nbrs g v ∧ e = pair v w ∧ ¬ (v ∈ S ∧ w ∈ S)

theorem degrees_nonneg {g : Csr} {d : List Int} (h : degrees g = .ok d) : ∀ x ∈ d, 0 ≤ x := by
  have key : ∀ (l : List Nat) (d d' : List Int), (∀ x ∈ d, 0 ≤ x) → l.foldlM (fun d v => do
      let x ← vget d v
      vset d v (x + 1)) d = .ok d' → ∀ x ∈ d', (0 : Int) ≤ x := by
    intro l
    induction l with
    | nil => intro d d' hd he; cases he; exact hd
    | cons v l ih =>
      intro d d' hd he
      rw [List.foldlM_cons] at he
      by_cases hv : v < d.length
      · rw [vget_of_lt hv, res_bind_ok, vset_of_lt hv, res_bind_ok] at he
        refine ih _ _ ?_ he
        intro x hx
        rcases List.mem_or_eq_of_mem_set hx with h | h
        · exact hd x h
        · rw [h]
          have := hd _ (List.getElem_mem hv)
          omega
      · unfold vget at he
        rw [List.getElem?_eq_none (Nat.le_of_not_lt hv)] at he
        cases he
  exact key _ _ _ (by intro x hx; rw [List.eq_of_mem_replicate hx]; exact Int.le_refl 0) h

/-- C79 for `k ≤ 0`, when the core is the whole graph: no execution removes an edge, and the number returned is the number of vertices.  Missing, because false
(`k_core_wrong`): positive `k`. -/
theorem k_core_partial (g : Csr) (k : Int) (hk : k ≤ 0) (r : List (Nat × Nat) × Nat) (h : kCore g k (.ok r)) : r = ([], g.ix.length - 1) := by
  unfold kCore at h
  cases hd : degrees g with
  | error f => rw [hd] at h; cases h
  | ok d =>
    cases hs : start g 0 with
    | error f => rw [hd, hs] at h; cases h
    | ok st =>
      rw [hd, hs] at h
      simp only at h
      have hnn := degrees_nonneg hd
      generalize hc : ({ filter := [], degree := d, n := g.ix.length - 1 } : Core) = c at h
      have key : ∀ (s : St × Core) (o : Res (List (Nat × Nat) × Nat)), Loop (coreBody g k) s o → s.2 = c → ∀ r, o = .ok r → r = ([], g.ix.length - 1) := by
        intro s o hl
        induction hl with
        | done hb =>
          intro hsc r hr
          cases hr
          unfold coreBody at hb
          split at hb
          · cases hb
            rw [hsc, ← hc]
          · exfalso
            revert hb
            cases target g _ <;> simp
            cases consider k _ _ _ <;> simp
            cases next g _ <;> simp
        | fault hb => intro _ r hr; cases hr
        | step hb hl' ih =>
          rename_i s s' o
          intro hsc r hr
          refine ih ?_ r hr
          unfold coreBody at hb
          split at hb
          · cases hb
          · cases ht : target g s.1 with
            | error f => rw [ht] at hb; cases hb
            | ok w =>
              rw [ht, res_bind_ok] at hb
              cases hcs : consider k s.2 s.1.v w with
              | error f => rw [hcs] at hb; cases hb
              | ok c' =>
                rw [hcs, res_bind_ok] at hb
                cases hn : next g s.1 with
                | error f => rw [hn] at hb; cases hb
                | ok st' =>
                  rw [hn, res_bind_ok] at hb
                  cases hb
                  show c' = c
                  unfold consider at hcs
                  rw [hsc] at hcs
                  split at hcs
                  · cases hcs; rfl
                  · cases hv : vget c.degree s.1.v with
                    | error f => rw [hv] at hcs; cases hcs
                    | ok x =>
                      rw [hv, res_bind_ok] at hcs
                      have hx : 0 ≤ x := by
                        rw [vget_eq_ok] at hv
                        have := List.mem_of_getElem? hv
                        rw [← hc] at this
                        exact hnn x this
                      rw [if_neg (by omega)] at hcs
                      cases hcs; rfl
      exact key _ _ h rfl r rfl

/-! ## What the number means -/

/-- How often a pair of the list has `v` as an end; a pair of equal ends counts twice. -/
def ends (f : List (Nat × Nat)) (v : Nat) : Nat := (f.map fun p => (if p.1 = v then 1 else 0) + if p.2 = v then 1 else 0).sum

theorem ok_of_bind {α β : Type} {m : Res α} {f : α → Res β} {b : β} (h : (m >>= f) = .ok b) : ∃ a, m = .ok a ∧ f a = .ok b := by
  cases m with
  | error e => cases h
  | ok a => exact ⟨a, rfl, h⟩

theorem degrees_count {g : Csr} {d : List Int} (h : degrees g = .ok d) :
    d.length = g.ix.length - 1 ∧ ∀ v, v < g.ix.length - 1 → d[v]? = some (g.col.count v : Int) := by
  have key : ∀ (l : List Nat) (d d' : List Int), l.foldlM (fun d v => do
      let x ← vget d v
      vset d v (x + 1)) d = .ok d' → d'.length = d.length ∧ ∀ (v : Nat) (x : Int), d[v]? = some x → d'[v]? = some (x + l.count v) := by
    intro l
    induction l with
    | nil => intro d d' he; cases he; exact ⟨rfl, fun v x hx => by simpa using hx⟩
    | cons u l ih =>
      intro d d' he
      rw [List.foldlM_cons] at he
      obtain ⟨a, h1, h2⟩ := ok_of_bind he
      obtain ⟨x, h3, h4⟩ := ok_of_bind h1
      have hu : u < d.length := (List.getElem?_eq_some_iff.1 (vget_eq_ok.1 h3)).1
      rw [vset_of_lt hu] at h4
      cases h4
      obtain ⟨k1, k2⟩ := ih _ _ h2
      refine ⟨by simpa using k1, fun v y hy => ?_⟩
      by_cases c : u = v
      · subst c
        rw [vget_eq_ok, hy] at h3
        obtain rfl : x = y := (Option.some.inj h3).symm
        rw [k2 u (x + 1) (by simp [hu]), List.count_cons_self]
        push_cast
        congr 1; omega
      · rw [k2 v y (by rw [List.getElem?_set_ne c]; exact hy), List.count_cons_of_ne c]
  obtain ⟨h1, h2⟩ := key _ _ _ h
  refine ⟨by simpa using h1, fun v hv => ?_⟩
  rw [h2 v 0 (by simp [hv])]
  simp

/-- The degrees and the number when the vertices have lost `occ` edges. -/
structure Counted (N : Nat) (deg occ : Nat → Nat) (degree : List Int) (n : Nat) : Prop where
  len : degree.length = N
  vals : ∀ v, v < N → degree[v]? = some ((deg v : Int) - occ v)
  num : n + (List.range N).countP (fun v => 0 < deg v ∧ deg v ≤ occ v) = N

theorem countP_more {p q : Nat → Bool} {w : Nat} (h1 : p w = false) (h2 : q w = true) (h : ∀ v, v ≠ w → q v = p v) (N : Nat) :
    (List.range N).countP q = (List.range N).countP p + if w < N then 1 else 0 := by
  induction N with
  | zero => simp
  | succ N ih =>
    rw [List.range_succ, List.countP_append, List.countP_append, ih]
    by_cases c : N = w
    · subst c; simp [h1, h2]
    · rw [List.countP_singleton, List.countP_singleton, h N c]
      have : (w < N + 1) ↔ w < N := by omega
      simp only [this]
      omega

theorem Counted.dec {N n w : Nat} {deg occ : Nat → Nat} {degree : List Int} {x : Int} (h : Counted N deg occ degree n) (hx : vget degree w = .ok x) :
    w < N ∧ Counted N deg (fun v => occ v + if w = v then 1 else 0) (degree.set w (x - 1)) (if x - 1 = 0 then n - 1 else n) := by
  rw [vget_eq_ok] at hx
  have hw : w < N := by rw [← h.len]; exact (List.getElem?_eq_some_iff.1 hx).1
  have hval := h.vals w hw
  rw [hx] at hval
  have hval := Option.some.inj hval
  refine ⟨hw, by simp [h.len], fun v hv => ?_, ?_⟩
  · by_cases c : w = v
    · subst c
      rw [List.getElem?_set, if_pos rfl, if_pos (by rw [h.len]; exact hw), if_pos rfl, hval]
      push_cast
      congr 1; omega
    · rw [List.getElem?_set_ne c, if_neg c, h.vals v hv]
      simp
  · have hn := h.num
    by_cases c : x - 1 = 0
    · rw [if_pos c]
      have hd : deg w = occ w + 1 := by omega
      have hc := countP_more (p := fun v => decide (0 < deg v ∧ deg v ≤ occ v)) (q := fun v => decide (0 < deg v ∧ deg v ≤ occ v + if w = v then 1 else 0)) (w := w)
        (by simp; omega) (by simp; omega) (fun v hv => by simp [Ne.symm hv]) N
      rw [if_pos hw] at hc
      have hle := List.countP_le_length (p := fun v => decide (0 < deg v ∧ deg v ≤ occ v + if w = v then 1 else 0)) (l := List.range N)
      rw [List.length_range] at hle
      omega
    · rw [if_neg c]
      have hc : (List.range N).countP (fun v => decide (0 < deg v ∧ deg v ≤ occ v + if w = v then 1 else 0)) = (List.range N).countP (fun v => decide (0 < deg v ∧ deg v ≤ occ v)) := by
        refine List.countP_congr fun v _ => ?_
        by_cases e : w = v
        · subst e; simp; omega
        · simp [e]
      omega

theorem ends_append (f : List (Nat × Nat)) (p : Nat × Nat) (v : Nat) : ends (f ++ [p]) v = ends f v + ((if p.1 = v then 1 else 0) + if p.2 = v then 1 else 0) := by
  simp [ends]

/-- The invariant of the loop. -/
def CoreInv (N : Nat) (deg : Nat → Nat) (c : Core) : Prop :=
  c.filter.Nodup ∧ (∀ p ∈ c.filter, p.1 ≤ p.2 ∧ p.2 < N) ∧ Counted N deg (ends c.filter) c.degree c.n

theorem consider_inv {N : Nat} {deg : Nat → Nat} {k : Int} {c c' : Core} {v w : Nat} (h : CoreInv N deg c) (hc : consider k c v w = .ok c') : CoreInv N deg c' := by
  obtain ⟨h1, h2, h3⟩ := h
  unfold consider at hc
  split at hc
  · cases hc; exact ⟨h1, h2, h3⟩
  · next hm =>
    obtain ⟨dv, k1, hc⟩ := ok_of_bind hc
    split at hc
    · obtain ⟨dw, k2, hc⟩ := ok_of_bind hc
      obtain ⟨hw, h4⟩ := h3.dec k2
      have hwl : w < c.degree.length := by rw [h3.len]; exact hw
      rw [vset_of_lt hwl, res_bind_ok] at hc
      dsimp only at hc
      obtain ⟨dv', k3, hc⟩ := ok_of_bind hc
      obtain ⟨hv, h5⟩ := h4.dec k3
      rw [vset_of_lt (by rw [h4.len]; exact hv), res_bind_ok] at hc
      cases hc
      refine ⟨?_, ?_, ?_⟩
      · dsimp only
        rw [List.nodup_append]
        refine ⟨h1, by simp, ?_⟩
        intro a ha b hb hab
        simp at hb
        rw [hab, hb] at ha
        exact hm ha
      · intro p hp
        rcases List.mem_append.1 hp with hp | hp
        · exact h2 p hp
        · simp at hp; subst hp
          unfold pair
          split <;> constructor <;> dsimp only <;> omega
      · have : ends (c.filter ++ [pair v w]) = fun x => ends c.filter x + (if w = x then 1 else 0) + if v = x then 1 else 0 := by
          funext x
          rw [ends_append]
          unfold pair
          split <;> dsimp only <;> omega
        dsimp only
        rw [this]
        exact h5
    · cases hc; exact ⟨h1, h2, h3⟩

/-- C79: what holds of the result for every graph and every `k`.  No pair is reported twice, all pairs consist of vertices, and the number returned is the number of vertices that have
not lost all their edges by the reported pairs.  Missing from the full statement, because false (`k_core_wrong`): that the pairs are the edges outside the core. -/
theorem k_core_number_partial (g : Csr) (k : Int) (r : List (Nat × Nat) × Nat) (h : kCore g k (.ok r)) :
    r.1.Nodup ∧ (∀ p ∈ r.1, p.1 ≤ p.2 ∧ p.2 < g.ix.length - 1) ∧
      r.2 + ((List.range (g.ix.length - 1)).filter fun v => 0 < g.col.count v ∧ g.col.count v ≤ ends r.1 v).length = g.ix.length - 1 := by
  unfold kCore at h
  cases hd : degrees g with
  | error f => rw [hd] at h; cases h
  | ok d =>
    cases hs : start g 0 with
    | error f => rw [hd, hs] at h; cases h
    | ok st =>
      rw [hd, hs] at h
      simp only at h
      obtain ⟨d1, d2⟩ := degrees_count hd
      have key : ∀ (s : St × Core) (o : Res (List (Nat × Nat) × Nat)), Loop (coreBody g k) s o → CoreInv (g.ix.length - 1) (fun v => g.col.count v) s.2 →
          ∀ r, o = .ok r → ∃ c, CoreInv (g.ix.length - 1) (fun v => g.col.count v) c ∧ r = (c.filter, c.n) := by
        intro s o hl
        induction hl with
        | done hb =>
          intro hI r hr
          cases hr
          unfold coreBody at hb
          split at hb
          · cases hb; exact ⟨_, hI, rfl⟩
          · exfalso
            obtain ⟨_, -, hb⟩ := ok_of_bind hb
            obtain ⟨_, -, hb⟩ := ok_of_bind hb
            obtain ⟨_, -, hb⟩ := ok_of_bind hb
            cases hb
        | fault hb => intro _ r hr; cases hr
        | step hb _ ih =>
          intro hI
          refine ih ?_
          unfold coreBody at hb
          split at hb
          · cases hb
          · obtain ⟨_, -, hb⟩ := ok_of_bind hb
            obtain ⟨c, h2, hb⟩ := ok_of_bind hb
            obtain ⟨_, -, hb⟩ := ok_of_bind hb
            cases hb
            exact consider_inv hI h2
      obtain ⟨c, hI, rfl⟩ := key _ _ h ⟨by simp, by simp, d1, fun v hv => by simpa [ends] using d2 v hv, by
        have : (List.range (g.ix.length - 1)).countP (fun v => decide (0 < g.col.count v ∧ g.col.count v ≤ ends [] v)) = 0 := by
          rw [List.countP_eq_zero]
          intro v _
          simp only [decide_eq_true_eq, show ends [] v = 0 from rfl]
          omega
        show g.ix.length - 1 + _ = _
        rw [this, Nat.add_zero]⟩ r rfl
      refine ⟨hI.1, hI.2.1, ?_⟩
      have := hI.2.2.num
      rw [List.countP_eq_length_filter] at this
      exact this

/-- A triangle and, apart from it, two vertices joined by an edge. -/
def exTri : Csr := { ix := [0, 2, 4, 6, 7, 8], col := [1, 2, 0, 2, 0, 1, 4, 3] }

/-- Vertex 0 alone, and two vertices joined by an edge. -/
def exPair : Csr := { ix := [0, 0, 1, 2], col := [2, 1] }

example : kCore exTri 0 (.ok ([], 5)) := Loop.of_runFuel (n := 40) (by decide +kernel)

/-- A triangle of the vertices 0, 2 and 3, and vertex 1 joined to 0. -/
def exPaw : Csr := { ix := [0, 3, 4, 6, 8], col := [1, 2, 3, 0, 0, 3, 0, 2] }

/-- 0 - 1 - 2. -/
def exPath : Csr := { ix := [0, 1, 3, 4], col := [1, 0, 2, 1] }

/-- On a triangle alone the result is right: the 3-core is empty and all edges are reported. -/
example : kCore { ix := [0, 2, 4, 6], col := [1, 2, 0, 2, 0, 1] } 3 (.ok ([(0, 1), (1, 2), (0, 2)], 0)) := Loop.of_runFuel (n := 40) (by decide +kernel)

/-- A case of `k_core_number_partial`: all three vertices of the triangle lose both their edges. -/
example : (0 : Nat) + ((List.range 3).filter fun v => 0 < [1, 2, 0, 2, 0, 1].count v ∧ [1, 2, 0, 2, 0, 1].count v ≤ ends [(0, 1), (1, 2), (0, 2)] v).length = 3 :=
  (k_core_number_partial { ix := [0, 2, 4, 6], col := [1, 2, 0, 2, 0, 1] } 3 ([(0, 1), (1, 2), (0, 2)], 0) (Loop.of_runFuel (n := 40) (by decide +kernel))).2.2

/-- C79 fails.  For a triangle and a separate edge the 2-core is the triangle, but nothing is removed; for an edge between the vertices 1 and 2 the 2-core is empty, but
the pair reported as removed is (0, 2), which is not an edge.  For a triangle with one more vertex joined to it, which is connected, the 2-core is the triangle, but all its edges are
reported as removed; and for a path of three vertices the search reads past the end of the neighbours. -/
theorem k_core_wrong :
    (∃ r, kCore exTri 2 (.ok r) ∧ r = ([], 5) ∧ IsKCore exTri 2 [0, 1, 2] ∧ ¬ Describes exTri 2 r) ∧
    (∃ r, kCore exPair 2 (.ok r) ∧ r = ([(0, 2)], 2) ∧ IsKCore exPair 2 [] ∧ ¬ Describes exPair 2 r) ∧
    (∃ r, kCore exPaw 2 (.ok r) ∧ r = ([(1, 3), (0, 3), (2, 3), (0, 2)], 1) ∧ IsKCore exPaw 2 [0, 2, 3] ∧ ¬ Describes exPaw 2 r) ∧
    kCore exPath 2 (.error .outOfBounds) := by
  have short : ∀ (g : Csr) (T : List Nat) (v : Nat), Dense g 2 T → (nbrs g v).length < 2 → v ∉ T := by
    intro g T v hT hl hv
    have := (hT v hv).2
    have h2 := List.length_filter_le (fun x => decide (x ∈ T)) (nbrs g v)
    omega
  have c1 : IsKCore exTri 2 [0, 1, 2] := by
    refine ⟨by decide, by unfold Dense; decide +kernel, ?_⟩
    intro T hT v hv
    have hn : v + 1 < 6 := (hT v hv).1
    have h3 : v ≠ 3 := by rintro rfl; exact short exTri T 3 hT (by decide) hv
    have h4 : v ≠ 4 := by rintro rfl; exact short exTri T 4 hT (by decide) hv
    simp only [List.mem_cons, List.not_mem_nil, or_false]
    omega
  have c2 : IsKCore exPair 2 [] := by
    refine ⟨by decide, by unfold Dense; simp, ?_⟩
    intro T hT v hv
    have hn : v + 1 < 4 := (hT v hv).1
    exfalso
    have h0 : v ≠ 0 := by rintro rfl; exact short exPair T 0 hT (by decide) hv
    have h1 : v ≠ 1 := by rintro rfl; exact short exPair T 1 hT (by decide) hv
    have h2 : v ≠ 2 := by rintro rfl; exact short exPair T 2 hT (by decide) hv
    omega
  have c3 : IsKCore exPaw 2 [0, 2, 3] := by
    refine ⟨by decide, by unfold Dense; decide +kernel, ?_⟩
    intro T hT v hv
    have hn : v + 1 < 5 := (hT v hv).1
    have h1 : v ≠ 1 := by rintro rfl; exact short exPaw T 1 hT (by decide) hv
    simp only [List.mem_cons, List.not_mem_nil, or_false]
    omega
  have len : ∀ {g : Csr} {k : Nat} {S S' : List Nat}, IsKCore g k S → IsKCore g k S' → S.length = S'.length := by
    intro g k S S' h h'
    refine ((List.perm_ext_iff_of_nodup h.1 h'.1).2 fun v => ?_).length_eq
    exact ⟨h'.2.2 S h.2.1 v, h.2.2 S' h'.2.1 v⟩
  refine ⟨⟨([], 5), Loop.of_runFuel (n := 40) (by decide +kernel), rfl, c1, ?_⟩, ⟨([(0, 2)], 2), Loop.of_runFuel (n := 40) (by decide +kernel), rfl, c2, ?_⟩,
    ⟨_, Loop.of_runFuel (n := 40) (by decide +kernel), rfl, c3, ?_⟩, Loop.of_runFuel (n := 40) (by decide +kernel)⟩
  · rintro ⟨S, hS, hl, -⟩
    have := len hS c1
    simp at hl this; omega
  · rintro ⟨S, hS, hl, -⟩
    have := len hS c2
    rw [this] at hl
    exact absurd hl (by decide)
  · rintro ⟨S, hS, hl, -⟩
    have := len hS c3
    rw [this] at hl
    exact absurd hl (by decide)

/-- C79 fails also by two more faults, for every outcome: on a directed cycle of three vertices the search reads a member of its iterator before anything is stored in it, and on a triangle
with an edge from one vertex to itself, whose edges go both ways, the assertion about the colour fails because a vertex is not coloured when it is entered. -/
theorem k_core_faults_wrong (o : Res (List (Nat × Nat) × Nat)) :
    (kCore { ix := [0, 1, 2, 3], col := [1, 2, 0] } 2 o ↔ o = .error .uninitialised) ∧
    (kCore { ix := [0, 2, 4, 7], col := [1, 2, 0, 2, 0, 1, 2] } 2 o ↔ o = .error .assertFailed) := by
  have h1 : kCore { ix := [0, 1, 2, 3], col := [1, 2, 0] } 2 (.error .uninitialised) := Loop.of_runFuel (n := 40) (by decide +kernel)
  have h2 : kCore { ix := [0, 2, 4, 7], col := [1, 2, 0, 2, 0, 1, 2] } 2 (.error .assertFailed) := Loop.of_runFuel (n := 40) (by decide +kernel)
  exact ⟨⟨fun h => Loop.det h h1, fun e => e ▸ h1⟩, ⟨fun h => Loop.det h h2, fun e => e ▸ h2⟩⟩

end NW.KCore
