import Mathlib.Algebra.Order.Ring.Int
import Verif.Lemmas.BkFlow
import Verif.Lemmas.BkSim

/-!
# `bk_maxflow` (C74)
-/

namespace NW.Bk
open Spec BackEdge
open MaxFlow (arc_of_not_edge)

variable {R : Type} [CommRing R] [LinearOrder R] [IsStrictOrderedRing R]

/-- `bk_maxflow` on a new `back_edge_range` over a graph whose edges carry capacities. -/
def bk (tol : R) (g : Rows R) (cap : List R) : Run (R × List Bool × BE R × List R) := do
  let net ← Run.lift (build 0 g false)
  bkMaxflow tol net cap

theorem good_start {g : Rows R} (hg : InRange g) (hc : ∀ u v, 0 ≤ arc g id u v) {cap : List R} (hcap : cap.length = g.length) :
    ∃ net st, build (0 : R) g false = .ok net ∧ init net cap = .ok st ∧ Rest g st st ∧ st.r = arc g id ∧ st.cap = cap ∧ st.mf = - terminalTotal g cap := by
  obtain ⟨net, h1, h2, h3⟩ := build_ok (P := fun b => b = (0 : R)) rfl hg
  have e := h2.g_eq
  obtain ⟨st, s1, s2, s3, s4, s5⟩ := init_ok (net := net) ⟨by rw [e]; exact h2, by rw [e]; exact h3, by rw [e], fun v => by rw [e]⟩ (by unfold res; rw [e]; exact hc) hcap
  refine ⟨net, st, h1, s1, s2, ?_, s4, s5⟩
  unfold St.r; rw [s3]; funext u v; unfold res; rw [e]

theorem result_ok {g : Rows R} (hc : ∀ u v, 0 ≤ arc g id u v) {cap : List R} {st0 st : St R} (hr : st0.r = arc g id) (hcap : st0.cap = cap) (hmf : st0.mf = - terminalTotal g cap)
    (h : Rest g st st) (hf : FInv g.length st0 st) :
    ∃ f, IsFlow (g.length + 2) (terminalCap g cap) g.length (g.length + 1) f ∧ st.mf = excess (g.length + 2) f g.length - terminalTotal g cap := by
  obtain ⟨h1, h2⟩ := theFlow_ok hf h.ok.inv.nonneg hr hc
  rw [hcap] at h1
  refine ⟨_, h1, ?_⟩
  rw [h2]
  have := hf.mf
  linarith

/-- C74 (partial: that the flow is maximal is missing, and it is false, see `bk_not_max`; termination for numbers that are not integers is missing).  On a network without loops and
parallel edges in which every edge has an opposite one, with capacities that are not negative and any numbers at the vertices, every outcome of `bk_maxflow` is a value, without undefined
behaviour, and the number returned is the value of a flow within the capacities minus the capacity into the terminal.  So the number is never too large. -/
theorem bk_maxflow_partial (g : Rows R) (hg : InRange g) (hs : Simple g) (hy : Symm g) (hc : ∀ u v, 0 ≤ arc g id u v) (cap : List R) (hcap : cap.length = g.length) (tol : R) (htol : 0 ≤ tol) :
    ∀ o, bk tol g cap o → ∃ x, o = .ok x ∧
      ∃ f, IsFlow (g.length + 2) (terminalCap g cap) g.length (g.length + 1) f ∧ x.1 = excess (g.length + 2) f g.length - terminalTotal g cap := by
  intro o ho
  obtain ⟨net, st0, b1, b2, b3, b4, b5, b6⟩ := good_start hg hc hcap
  obtain ⟨net', e, ho⟩ | ⟨f, e, -⟩ := ho
  swap
  · rw [b1] at e; cases e
  rw [b1] at e; cases e
  obtain ⟨st', e, ho⟩ | ⟨f, e, -⟩ := ho
  swap
  · rw [b2] at e; cases e
  rw [b2] at e; cases e
  have key := fun r => Run.all_loopR (body := round tol) (fun st => Rest g st st ∧ FInv g.length st0 st) (Q := fun st => Rest g st st ∧ FInv g.length st0 st) (fun s hs' =>
    (round_ok htol hs hg hy hs'.1).mono (by
      rintro (s' | s')
      · rintro ⟨h1, h2, -⟩; exact ⟨h1, hs'.2.trans h2⟩
      · rintro ⟨h1, h2⟩; exact ⟨h1, hs'.2.trans h2⟩)) (s := st0) ⟨b3, FInv.refl _ _⟩ (o := r)
  obtain ⟨st, e, ho⟩ | ⟨f, e, -⟩ := ho
  · obtain ⟨st', e', h1, h2⟩ := key _ e
    cases e'
    exact ⟨_, ho, result_ok hc b4 b5 b6 h1 h2⟩
  · obtain ⟨st', e', -⟩ := key _ e
    cases e'

/-- C74, integers (partial: that the flow is maximal is missing, and it is false).  With integer capacities `bk_maxflow` also ends. -/
theorem bk_maxflow_int_partial (g : Rows ℤ) (hg : InRange g) (hs : Simple g) (hy : Symm g) (hc : ∀ u v, 0 ≤ arc g id u v) (cap : List ℤ) (hcap : cap.length = g.length) (tol : ℤ) (htol : 0 ≤ tol) :
    Run.Gives (bk tol g cap) fun x => ∃ f, IsFlow (g.length + 2) (terminalCap g cap) g.length (g.length + 1) f ∧ x.1 = excess (g.length + 2) f g.length - terminalTotal g cap := by
  obtain ⟨net, st0, b1, b2, b3, b4, b5, b6⟩ := good_start hg hc hcap
  unfold bk
  refine (Run.gives_lift (Q := fun o => o = net) b1 rfl).bind ?_
  rintro net rfl
  unfold bkMaxflow
  refine (Run.gives_lift (Q := fun o => o = st0) b2 rfl).bind ?_
  rintro st0 rfl
  refine (Run.gives_loopR (body := round tol) (Q := fun st => Rest g st st ∧ FInv g.length st0 st) (fun st => Rest g st st ∧ FInv g.length st0 st) (· < ·) (Nat.lt_wfRel).wf
    (fun st => (possum g.length st).toNat) ?_ st0 ⟨b3, FInv.refl _ _⟩).bind ?_
  · intro s hs'
    refine (round_ok htol hs hg hy hs'.1).mono ?_
    rintro (s' | s')
    · rintro ⟨h1, h2, h3⟩
      refine ⟨⟨h1, hs'.2.trans h2⟩, ?_⟩
      have : 0 ≤ possum g.length s' := Finset.sum_nonneg fun v _ => le_max_right _ _
      show (possum g.length s').toNat < (possum g.length s).toNat
      omega
    · rintro ⟨h1, h2⟩; exact ⟨h1, hs'.2.trans h2⟩
  · rintro st ⟨h1, h2⟩
    exact Run.gives_pure (result_ok hc b4 b5 b6 h1 h2)

omit [IsStrictOrderedRing R] in
/-- A number computed by the simulation is the one outcome. -/
theorem bk_eval {fuel : Nat} {tol : R} {g : Rows R} {cap : List R} {x : R} {ls : List Bool} (h : (match build 0 g false with
      | .ok s => (match (simBk fuel tol s cap).val with
        | some (.ok r) => some (r.1, r.2.1)
        | _ => none)
      | _ => none) = some (x, ls)) : Run.Gives (bk tol g cap) fun r => r.1 = x ∧ r.2.1 = ls := by
  cases hb : build 0 g false with
  | error f => rw [hb] at h; cases h
  | ok s =>
    rw [hb] at h
    dsimp only at h
    cases hv : (simBk fuel tol s cap).val with
    | none => rw [hv] at h; cases h
    | some v =>
      rw [hv] at h
      cases v with
      | error f => cases h
      | ok r =>
        have h1 : r.1 = x ∧ r.2.1 = ls := by simpa using h
        unfold bk
        refine (Run.gives_lift (Q := fun o => o = s) hb rfl).bind ?_
        rintro s rfl
        have hsnd := (simBk fuel tol s cap).sound _ hv
        exact ⟨⟨_, (hsnd _).2 rfl⟩, fun o ho => ⟨r, (hsnd o).1 ho, h1⟩⟩

/-- A flow given by a list of arcs. -/
def listFlow (l : List (Nat × Nat × ℤ)) (u v : Nat) : ℤ := ((l.filter fun e => e.1 = u ∧ e.2.1 = v).map fun e => e.2.2).sum

/-- Ten vertices in which every edge has an opposite one; two units can leave the source from vertex 2 for 6 at first. -/
def bad : Rows ℤ :=
  [[(6, 0)], [(3, 1), (2, 0)], [(1, 1), (3, 2)], [(2, 0), (4, 2), (1, 0), (5, 1)], [(5, 1), (9, 1), (3, 0)], [(7, 2), (4, 0), (3, 0)], [(8, 0), (0, 1), (9, 0)], [(5, 0), (8, 1), (9, 1)],
    [(6, 1), (7, 0)], [(7, 0), (4, 0), (6, 2)]]

def badCap : List ℤ := [-1, 0, 4, 0, 0, 0, -2, 0, 0, 0]

/-- A flow of value 3 on it. -/
def badFlow : Nat → Nat → ℤ := listFlow
  [(0, 11, 1), (1, 3, 1), (2, 1, 1), (2, 3, 2), (3, 4, 2), (3, 5, 1), (4, 5, 1), (4, 9, 1), (5, 7, 2), (6, 0, 1), (6, 11, 2), (7, 8, 1), (7, 9, 1), (8, 6, 1), (9, 6, 2), (10, 2, 3)]

/-- C74 is false even if every edge has an opposite one: `bk_maxflow` sends two units on `bad` although three can be sent.  A neighbour of an orphan without a new parent becomes active
again only if the capacity from the orphan to it (source tree) is positive, where the capacity towards the orphan would be needed, and conversely in the other tree. -/
theorem bk_not_max : InRange bad ∧ Simple bad ∧ Symm bad ∧ badCap.length = bad.length ∧ Run.Gives (bk 0 bad badCap) (fun x => x.1 = 2 - terminalTotal bad badCap) ∧
    IsFlow (bad.length + 2) (terminalCap bad badCap) bad.length (bad.length + 1) badFlow ∧ excess (bad.length + 2) badFlow bad.length = 3 := by
  refine ⟨by decide, by decide, by decide, by decide, ?_, ⟨?_, ?_, ?_⟩, by decide +kernel⟩
  · refine (bk_eval (fuel := 200) (x := -1) (ls := [true, false, false, false, false, true, true, true, true, true]) (by decide +kernel)).mono ?_
    rintro r ⟨h, -⟩
    rw [h]
    decide +kernel
  · exact fun u v hu hv => (by decide +kernel : ∀ u < bad.length + 2, ∀ v < bad.length + 2, 0 ≤ badFlow u v) u hu v hv
  · exact fun u v hu hv => (by decide +kernel : ∀ u < bad.length + 2, ∀ v < bad.length + 2, badFlow u v ≤ terminalCap bad badCap u v) u hu v hv
  · exact fun v hv => (by decide +kernel : ∀ v < bad.length + 2, v ≠ bad.length → v ≠ bad.length + 1 → excess (bad.length + 2) badFlow v = 0) v hv

/-- Nine vertices with edges that have no opposite one. -/
def bad2 : Rows ℤ :=
  [[(2, 4), (4, 3), (6, 3)], [], [(3, 3), (7, 4)], [(8, 2)], [(6, 3), (3, 4), (8, 3), (5, 5)], [(6, 4), (4, 4)], [(1, 2), (5, 5), (0, 1)], [(4, 3), (6, 2)], [(0, 5), (2, 1)]]

def bad2Cap : List ℤ := [10, 0, 0, -4, -4, 9, -7, 0, -5]

def bad2Flow : Nat → Nat → ℤ := listFlow
  [(0, 2, 4), (0, 4, 3), (0, 6, 3), (2, 3, 3), (2, 7, 1), (3, 10, 4), (4, 3, 1), (4, 8, 3), (4, 10, 4), (5, 4, 4), (5, 6, 4), (6, 10, 7), (7, 4, 1), (8, 10, 3), (9, 0, 10), (9, 5, 8)]

/-- C74 is false also because an edge that the `back_edge_range` adds is stored twice: 15 instead of 18 units. -/
theorem bk_not_max_extra : InRange bad2 ∧ Simple bad2 ∧ bad2Cap.length = bad2.length ∧ Run.Gives (bk 0 bad2 bad2Cap) (fun x => x.1 = 15 - terminalTotal bad2 bad2Cap) ∧
    IsFlow (bad2.length + 2) (terminalCap bad2 bad2Cap) bad2.length (bad2.length + 1) bad2Flow ∧ excess (bad2.length + 2) bad2Flow bad2.length = 18 := by
  refine ⟨by decide, by decide, by decide, ?_, ⟨?_, ?_, ?_⟩, by decide +kernel⟩
  · refine (bk_eval (fuel := 200) (x := -5) (ls := [false, false, true, true, true, false, false, true, true]) (by decide +kernel)).mono ?_
    rintro r ⟨h, -⟩
    rw [h]
    decide +kernel
  · exact fun u v hu hv => (by decide +kernel : ∀ u < bad2.length + 2, ∀ v < bad2.length + 2, 0 ≤ bad2Flow u v) u hu v hv
  · exact fun u v hu hv => (by decide +kernel : ∀ u < bad2.length + 2, ∀ v < bad2.length + 2, bad2Flow u v ≤ terminalCap bad2 bad2Cap u v) u hu v hv
  · exact fun v hv => (by decide +kernel : ∀ v < bad2.length + 2, v ≠ bad2.length → v ≠ bad2.length + 1 → excess (bad2.length + 2) bad2Flow v = 0) v hv

/-- The hypotheses of the theorems hold for `bad`. -/
example : InRange bad ∧ Simple bad ∧ Symm bad ∧ (∀ u v, 0 ≤ arc bad id u v) ∧ badCap.length = bad.length := by
  refine ⟨by decide, by decide, by decide, ?_, by decide⟩
  intro u v
  by_cases h : Edge bad u v
  · have hg : InRange bad := by decide
    exact (by decide +kernel : ∀ u < bad.length, ∀ v < bad.length, 0 ≤ arc bad id u v) u h.src_lt v (hg _ _ h)
  · rw [arc_of_not_edge _ h]

end NW.Bk
