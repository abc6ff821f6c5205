import Verif.Lemmas.BkNet

/-!
# The two trees of `bk_maxflow`

Here a state is given by functions: residual capacities `r`, capacities of the arcs from the source and to the terminal `cp`, parents `pr`, trees `ti`, pointers `tr`, timestamps `ts`,
distances `ds` and the clock `gt`.
-/

namespace NW.Bk
open Spec BackEdge
open MaxFlow (place)

variable {R : Type} [CommRing R] [LinearOrder R]

/-- The number of the terminal or of the source. -/
def tgt (n : Nat) (t : Bool) : Nat := if t = true then n + 1 else n

/-- The residual capacity of the tree edge between `v` and its parent `u`. -/
def tres (r : Nat → Nat → R) (t : Bool) (u v : Nat) : R := if t = true then r v u else r u v

/-- The pointers of the tree edge between `v` and its parent `u`. -/
def tpair (g0 : Rows R) (t : Bool) (u v : Nat) : Loc × Loc := if t = true then (place g0 v u, place g0 u v) else (place g0 u v, place g0 v u)

/-- The vertex `u` is closer to the root than `v`. -/
def Above (ts ds : Nat → Nat) (u v : Nat) : Prop := ts v < ts u ∨ ts v = ts u ∧ ds u < ds v

structure TI (g0 : Rows R) (r : Nat → Nat → R) (cp : Nat → R) (pr : Nat → Option Nat) (ti : Nat → Bool) (tr : Nat → Option (Loc × Loc)) (ts ds : Nat → Nat) (gt : Nat) : Prop where
  nonneg : ∀ u v, 0 ≤ r u v
  dom : ∀ v u, pr v = some u → v < g0.length
  lt : ∀ v u, pr v = some u → u < g0.length ∨ u = tgt g0.length (ti v)
  root : ∀ v, pr v = some (tgt g0.length (ti v)) → 0 < (if ti v = true then - cp v else cp v)
  edge : ∀ v u, pr v = some u → u < g0.length → Edge g0 u v
  tree : ∀ v u, pr v = some u → u < g0.length → ti u = ti v
  ptr : ∀ v u, pr v = some u → u < g0.length → tr v = some (tpair g0 (ti v) u v)
  pos : ∀ v u, pr v = some u → u < g0.length → 0 < tres r (ti v) u v
  rank : ∀ v u, pr v = some u → u < g0.length → Above ts ds u v
  time : ∀ v, ts v ≤ gt

section
variable {g0 : Rows R} {r : Nat → Nat → R} {cp : Nat → R} {pr : Nat → Option Nat} {ti : Nat → Bool} {tr : Nat → Option (Loc × Loc)} {ts ds : Nat → Nat} {gt : Nat}

theorem Above.trans {u v w : Nat} (h : Above ts ds u v) (h' : Above ts ds v w) : Above ts ds u w := by
  unfold Above at *; omega

theorem Above.irrefl {u : Nat} (h : Above ts ds u u) : False := by
  unfold Above at h; omega

theorem not_tgt {n v : Nat} {t : Bool} (h : v < n) : v ≠ tgt n t := by
  unfold tgt; split <;> omega

/-- The vertex `q` becomes a child of `p`. -/
theorem TI.attach (h : TI g0 r cp pr ti tr ts ds gt) {p q : Nat} (hp : p < g0.length) (hq : q < g0.length) (hne : p ≠ q) (he : Edge g0 p q)
    {pr' : Nat → Option Nat} {ti' : Nat → Bool} {tr' : Nat → Option (Loc × Loc)} {ts' ds' : Nat → Nat}
    (hpr : ∀ w, pr' w = if w = q then some p else pr w) (hti : ∀ w, ti' w = if w = q then ti p else ti w)
    (htr : ∀ w, tr' w = if w = q then some (tpair g0 (ti p) p q) else tr w)
    (hts : ∀ w, w ≠ q → ts' w = ts w) (hds : ∀ w, w ≠ q → ds' w = ds w) (htime : ts' q ≤ gt) (hpos : 0 < tres r (ti p) p q) (hrank : Above ts' ds' p q)
    (hch : ∀ x, x ≠ q → pr x = some q → ti x = ti p ∧ Above ts' ds' q x) : TI g0 r cp pr' ti' tr' ts' ds' gt := by
  have hp' : ti' p = ti p := by rw [hti, if_neg hne]
  have hq' : ti' q = ti p := by rw [hti, if_pos rfl]
  have base : ∀ v u, pr' v = some u → (v = q ∧ u = p) ∨ (v ≠ q ∧ pr v = some u ∧ ti' v = ti v ∧ tr' v = tr v ∧ ts' v = ts v ∧ ds' v = ds v) := by
    intro v u e
    rw [hpr] at e
    by_cases c : v = q
    · rw [if_pos c] at e; cases e; exact Or.inl ⟨c, rfl⟩
    · rw [if_neg c] at e
      exact Or.inr ⟨c, e, by rw [hti, if_neg c], by rw [htr, if_neg c], hts v c, hds v c⟩
  refine ⟨h.nonneg, ?_, ?_, ?_, ?_, ?_, ?_, ?_, ?_, ?_⟩
  · intro v u e
    rcases base v u e with ⟨rfl, rfl⟩ | ⟨c, e, -⟩
    · exact hq
    · exact h.dom v u e
  · intro v u e
    rcases base v u e with ⟨rfl, rfl⟩ | ⟨c, e, e1, -⟩
    · exact Or.inl hp
    · rw [e1]; exact h.lt v u e
  · intro v e
    rcases base v _ e with ⟨rfl, e'⟩ | ⟨c, e, e1, -⟩
    · exact absurd e'.symm (not_tgt hp)
    · rw [e1] at e ⊢; exact h.root v e
  · intro v u e hu
    rcases base v u e with ⟨rfl, rfl⟩ | ⟨c, e, e1, -⟩
    · exact he
    · exact h.edge v u e hu
  · intro v u e hu
    rcases base v u e with ⟨rfl, rfl⟩ | ⟨c, e, e1, -⟩
    · rw [hp', hq']
    · rw [e1]
      by_cases c2 : u = q
      · subst c2; rw [hq']; exact ((hch v c e).1).symm
      · rw [hti, if_neg c2]; exact h.tree v u e hu
  · intro v u e hu
    rcases base v u e with ⟨rfl, rfl⟩ | ⟨c, e, e1, e2, -⟩
    · rw [htr, if_pos rfl, hq']
    · rw [e1, e2]; exact h.ptr v u e hu
  · intro v u e hu
    rcases base v u e with ⟨rfl, rfl⟩ | ⟨c, e, e1, e2, -⟩
    · rw [hq']; exact hpos
    · rw [e1]; exact h.pos v u e hu
  · intro v u e hu
    rcases base v u e with ⟨rfl, rfl⟩ | ⟨c, e, e1, e2, e3, e4⟩
    · exact hrank
    · by_cases c2 : u = q
      · subst c2; exact (hch v c e).2
      · have := h.rank v u e hu
        unfold Above at this ⊢
        rw [e3, e4, hts u c2, hds u c2]; exact this
  · intro v
    by_cases c : v = q
    · subst c; exact htime
    · rw [hts v c]; exact h.time v

/-- Vertices lose their parents. -/
theorem TI.detach (h : TI g0 r cp pr ti tr ts ds gt) {pr' : Nat → Option Nat} (hpr : ∀ w u, pr' w = some u → pr w = some u) : TI g0 r cp pr' ti tr ts ds gt :=
  ⟨h.nonneg, fun v u e => h.dom v u (hpr v u e), fun v u e => h.lt v u (hpr v u e), fun v e => h.root v (hpr v _ e), fun v u e => h.edge v u (hpr v u e),
    fun v u e => h.tree v u (hpr v u e), fun v u e => h.ptr v u (hpr v u e), fun v u e => h.pos v u (hpr v u e), fun v u e => h.rank v u (hpr v u e), h.time⟩

/-- Timestamps and distances change. -/
theorem TI.retime (h : TI g0 r cp pr ti tr ts ds gt) {ts' ds' : Nat → Nat} {gt' : Nat} (hr : ∀ v u, pr v = some u → u < g0.length → Above ts' ds' u v) (ht : ∀ v, ts' v ≤ gt') :
    TI g0 r cp pr ti tr ts' ds' gt' :=
  ⟨h.nonneg, h.dom, h.lt, h.root, h.edge, h.tree, h.ptr, h.pos, hr, ht⟩

/-- Capacities change. -/
theorem TI.recap (h : TI g0 r cp pr ti tr ts ds gt) {r' : Nat → Nat → R} {cp' : Nat → R} (hn : ∀ u v, 0 ≤ r' u v)
    (hroot : ∀ v, pr v = some (tgt g0.length (ti v)) → 0 < (if ti v = true then - cp' v else cp' v)) (hpos : ∀ v u, pr v = some u → u < g0.length → 0 < tres r' (ti v) u v) :
    TI g0 r' cp' pr ti tr ts ds gt :=
  ⟨hn, h.dom, h.lt, hroot, h.edge, h.tree, h.ptr, hpos, h.rank, h.time⟩

/-- Induction from the root towards the leaves. -/
theorem TI.induct (h : TI g0 r cp pr ti tr ts ds gt) {P : Nat → Prop} (step : ∀ v, (∀ u, Above ts ds u v → P u) → P v) (v : Nat) : P v := by
  have key : ∀ a b v, gt - ts v = a → ds v = b → P v := by
    intro a
    induction a using Nat.strong_induction_on with
    | _ a iha =>
      intro b
      induction b using Nat.strong_induction_on with
      | _ b ihb =>
        intro v ha hb
        refine step v fun u hu => ?_
        have h1 := h.time u
        have h2 := h.time v
        rcases hu with hu | ⟨hu, hu'⟩
        · exact iha (gt - ts u) (by omega) (ds u) u rfl rfl
        · exact ihb (ds u) (by omega) u (by omega) rfl
  exact key _ _ v rfl rfl

/-- The vertices from `v` up to a child of the source or of the terminal. -/
inductive Up (n : Nat) (pr : Nat → Option Nat) (t : Bool) : Nat → List Nat → Prop
  | root {v : Nat} (h : pr v = some (tgt n t)) : Up n pr t v [v]
  | step {v u : Nat} {vs : List Nat} (h : pr v = some u) (hu : u < n) (h' : Up n pr t u vs) : Up n pr t v (v :: vs)

/-- No vertex hangs on a vertex outside the trees. -/
def Hung (n : Nat) (pr : Nat → Option Nat) : Prop := ∀ v u, pr v = some u → u < n → pr u ≠ none

theorem TI.up (h : TI g0 r cp pr ti tr ts ds gt) (hh : Hung g0.length pr) (v : Nat) : pr v ≠ none → ∃ vs, Up g0.length pr (ti v) v vs ∧ ∀ w ∈ vs, w = v ∨ Above ts ds w v := by
  induction v using h.induct with
  | step v ih =>
    intro hv
    cases hp : pr v with
    | none => exact absurd hp hv
    | some u =>
      rcases h.lt v u hp with hu | hu
      · obtain ⟨vs, h1, h2⟩ := ih u (h.rank v u hp hu) (hh v u hp hu)
        rw [h.tree v u hp hu] at h1
        refine ⟨v :: vs, .step hp hu h1, fun w hw => ?_⟩
        rcases List.mem_cons.1 hw with rfl | hw
        · exact Or.inl rfl
        · right
          rcases h2 w hw with rfl | h3
          · exact h.rank v _ hp hu
          · exact h3.trans (h.rank v u hp hu)
      · subst hu
        exact ⟨[v], .root hp, by simp⟩

theorem Up.nodup (h : TI g0 r cp pr ti tr ts ds gt) {t : Bool} {v : Nat} {vs : List Nat} (hu : Up g0.length pr t v vs) : vs.Nodup ∧ ∀ w ∈ vs, w = v ∨ Above ts ds w v := by
  induction hu with
  | root e => simp
  | @step v u vs e hu' _ ih =>
    have hr := h.rank v u e hu'
    have key : ∀ w ∈ vs, Above ts ds w v := fun w hw => by
      rcases ih.2 w hw with rfl | h3
      · exact hr
      · exact h3.trans hr
    refine ⟨List.nodup_cons.2 ⟨fun hw => (key v hw).irrefl, ih.1⟩, ?_⟩
    intro w hw
    rcases List.mem_cons.1 hw with rfl | hw
    · exact Or.inl rfl
    · exact Or.inr (key w hw)

end

end NW.Bk
