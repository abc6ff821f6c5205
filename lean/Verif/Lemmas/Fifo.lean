import Verif.Spec.Walk
import Mathlib.Data.List.Perm.Subperm
import Mathlib.Tactic.Tauto

/-! # Lemmas: first-in first-out exploration computes breadth-first distances

`D` and `par` are the distances and parents recorded so far, `done` the vertices whose neighbours have all been looked at, `q` the
waiting vertices in order. -/

namespace NW.Fifo
open Spec

variable {α : Type}

/-- Updating a partial map. -/
def upd (f : Nat → Option Nat) (v x : Nat) : Nat → Option Nat := fun w => if w = v then some x else f w

/-- While the neighbours of `u` are being looked at; `scanned` are those already seen. -/
structure Mid (g : Rows α) (root : Nat) (done : List Nat) (u : Nat) (scanned q : List Nat) (D par : Nat → Option Nat) : Prop where
  nodup : (done ++ u :: q).Nodup
  disc : ∀ v, v ∈ done ++ u :: q ↔ ∃ d, D v = some d
  root0 : D root = some 0
  rootpar : par root = some root
  parD : ∀ v, (∃ p, par v = some p) ↔ ∃ d, D v = some d
  mono : (done ++ u :: q).Pairwise (fun a b => ∀ x y, D a = some x → D b = some y → x ≤ y)
  near : ∀ v ∈ done ++ u :: q, ∀ x y, D v = some x → D u = some y → x ≤ y + 1
  bound : ∀ v d, D v = some d → d ≤ done.length + 1
  boundU : ∀ d, D u = some d → d ≤ done.length
  closed : ∀ v ∈ done, ∀ w, Edge g v w → ∃ x y, D v = some x ∧ D w = some y ∧ y ≤ x + 1
  here : ∀ w ∈ scanned, ∃ x y, D u = some x ∧ D w = some y ∧ y ≤ x + 1
  tree : ∀ v p, v ≠ root → par v = some p → Edge g p v ∧ p ∈ done ++ [u] ∧ ∃ x, D p = some x ∧ D v = some (x + 1)
  walk : ∀ v d, D v = some d → Walk g root v d

/-- Between vertices. -/
structure Inv (g : Rows α) (root : Nat) (done q : List Nat) (D par : Nat → Option Nat) : Prop where
  nodup : (done ++ q).Nodup
  disc : ∀ v, v ∈ done ++ q ↔ ∃ d, D v = some d
  root0 : D root = some 0
  rootpar : par root = some root
  parD : ∀ v, (∃ p, par v = some p) ↔ ∃ d, D v = some d
  mono : (done ++ q).Pairwise (fun a b => ∀ x y, D a = some x → D b = some y → x ≤ y)
  near : ∀ u ∈ q, ∀ v ∈ done ++ q, ∀ x y, D v = some x → D u = some y → x ≤ y + 1
  bound : ∀ v d, D v = some d → d ≤ done.length
  closed : ∀ v ∈ done, ∀ w, Edge g v w → ∃ x y, D v = some x ∧ D w = some y ∧ y ≤ x + 1
  tree : ∀ v p, v ≠ root → par v = some p → Edge g p v ∧ p ∈ done ∧ ∃ x, D p = some x ∧ D v = some (x + 1)
  walk : ∀ v d, D v = some d → Walk g root v d

theorem Inv.init (g : Rows α) (root : Nat) : Inv g root [] [root] (upd (fun _ => none) root 0) (upd (fun _ => none) root root) where
  nodup := by simp
  disc := by intro v; by_cases h : v = root <;> simp [upd, h]
  root0 := by simp [upd]
  rootpar := by simp [upd]
  parD := by intro v; by_cases h : v = root <;> simp [upd, h]
  mono := by simp
  near := by
    intro u hu v hv x y h1 h2
    simp at hu hv; subst hu; subst hv
    simp [upd] at h1 h2; omega
  bound := by
    intro v d h
    by_cases c : v = root
    · subst c; simp [upd] at h; omega
    · simp [upd, c] at h
  closed := by intro v hv; simp at hv
  tree := by
    intro v p hne hp
    simp [upd, hne] at hp
  walk := by
    intro v d h
    by_cases c : v = root
    · subst c
      simp [upd] at h; subst h; exact .nil
    · simp [upd, c] at h

theorem Inv.start {g : Rows α} {root : Nat} {done : List Nat} {u : Nat} {q : List Nat} {D par : Nat → Option Nat}
    (h : Inv g root done (u :: q) D par) : Mid g root done u [] q D par where
  nodup := h.nodup
  disc := h.disc
  root0 := h.root0
  rootpar := h.rootpar
  parD := h.parD
  mono := h.mono
  near := h.near u (by simp)
  bound := fun v d hd => Nat.le_succ_of_le (h.bound v d hd)
  boundU := fun d hd => h.bound u d hd
  closed := h.closed
  here := by simp
  tree := by
    intro v p h1 h2
    obtain ⟨a, b, c⟩ := h.tree v p h1 h2
    exact ⟨a, by simp [b], c⟩
  walk := h.walk

theorem Mid.self {g : Rows α} {root : Nat} {done : List Nat} {u : Nat} {sc q : List Nat} {D par : Nat → Option Nat}
    (h : Mid g root done u sc q D par) : ∃ d, D u = some d := (h.disc u).1 (by simp)

/-- A neighbour that has been discovered before. -/
theorem Mid.seen {g : Rows α} {root : Nat} {done : List Nat} {u : Nat} {sc q : List Nat} {D par : Nat → Option Nat} {w d : Nat}
    (h : Mid g root done u sc q D par) (hw : D w = some d) : Mid g root done u (sc ++ [w]) q D par :=
  { h with
    here := by
      intro x hx
      rcases List.mem_append.1 hx with hx | hx
      · exact h.here x hx
      · simp at hx; subst hx
        obtain ⟨du, hu⟩ := h.self
        exact ⟨du, d, hu, hw, h.near x ((h.disc x).2 ⟨d, hw⟩) d du hw hu⟩ }

/-- A neighbour discovered now. -/
theorem Mid.discover {g : Rows α} {root : Nat} {done : List Nat} {u : Nat} {sc q : List Nat} {D par : Nat → Option Nat} {w du : Nat}
    (h : Mid g root done u sc q D par) (hw : D w = none) (he : Edge g u w) (hu : D u = some du) :
    Mid g root done u (sc ++ [w]) (q ++ [w]) (upd D w (du + 1)) (upd par w u) := by
  have hnew : w ∉ done ++ u :: q := by
    intro hm
    obtain ⟨d, hd⟩ := (h.disc w).1 hm
    rw [hw] at hd; cases hd
  have hkeep : ∀ v d, D v = some d → upd D w (du + 1) v = some d := by
    intro v d hv
    have : v ≠ w := by rintro rfl; rw [hw] at hv; cases hv
    simp [upd, this, hv]
  have hback : ∀ v, v ≠ w → upd D w (du + 1) v = D v := fun v hv => by simp [upd, hv]
  have hww : upd D w (du + 1) w = some (du + 1) := by simp [upd]
  have hne : ∀ v ∈ done ++ u :: q, v ≠ w := by rintro v hv rfl; exact hnew hv
  have hroot : root ≠ w := by rintro rfl; have := h.root0; rw [hw] at this; cases this
  have hassoc : done ++ u :: (q ++ [w]) = (done ++ u :: q) ++ [w] := by simp
  constructor
  · rw [hassoc, List.nodup_append]
    refine ⟨h.nodup, by simp, ?_⟩
    intro a ha b hb hab
    simp at hb; subst hb; subst hab
    exact hnew ha
  · intro v
    rw [hassoc, List.mem_append]
    by_cases c : v = w
    · subst c; simp [hww]
    · rw [hback v c, ← h.disc v]; simp [c]
  · exact hkeep _ _ h.root0
  · simp [upd, hroot, h.rootpar]
  · intro v
    by_cases c : v = w
    · subst c; simp [upd]
    · rw [hback v c, ← h.parD v]; simp [upd, c]
  · rw [hassoc, List.pairwise_append]
    refine ⟨?_, by simp, ?_⟩
    · refine h.mono.imp_of_mem ?_
      intro a b ha hb hab x y hx hy
      rw [hback a (hne a ha)] at hx
      rw [hback b (hne b hb)] at hy
      exact hab x y hx hy
    · intro a ha b hb x y hx hy
      simp at hb; subst hb
      rw [hww] at hy; cases hy
      rw [hback a (hne a ha)] at hx
      exact h.near a ha x du hx hu
  · intro v hv x y hx hy
    rw [hback u (hne u (by simp)), hu] at hy; cases hy
    by_cases c : v = w
    · subst c; rw [hww] at hx; cases hx; omega
    · rw [hback v c] at hx
      refine h.near v ?_ x du hx hu
      rw [hassoc, List.mem_append] at hv
      rcases hv with hv | hv
      · exact hv
      · simp at hv; exact absurd hv c
  · intro v d hd
    by_cases c : v = w
    · subst c; rw [hww] at hd; cases hd
      have := h.boundU du hu; omega
    · rw [hback v c] at hd; exact h.bound v d hd
  · intro d hd
    rw [hback u (hne u (by simp))] at hd
    exact h.boundU d hd
  · intro v hv w' hw'
    obtain ⟨x, y, h1, h2, h3⟩ := h.closed v hv w' hw'
    exact ⟨x, y, hkeep _ _ h1, hkeep _ _ h2, h3⟩
  · intro w' hw'
    rcases List.mem_append.1 hw' with hw' | hw'
    · obtain ⟨x, y, h1, h2, h3⟩ := h.here w' hw'
      exact ⟨x, y, hkeep _ _ h1, hkeep _ _ h2, h3⟩
    · simp at hw'; subst hw'
      exact ⟨du, du + 1, hkeep _ _ hu, hww, Nat.le_refl _⟩
  · intro v p hv hp
    by_cases c : v = w
    · subst c
      simp [upd] at hp; subst hp
      exact ⟨he, by simp, du, hkeep _ _ hu, hww⟩
    · have hp' : par v = some p := by simpa [upd, c] using hp
      obtain ⟨h1, h2, x, h3, h4⟩ := h.tree v p hv hp'
      exact ⟨h1, h2, x, hkeep _ _ h3, hkeep _ _ h4⟩
  · intro v d hd
    by_cases c : v = w
    · subst c
      rw [hww] at hd; cases hd
      exact .snoc (h.walk u du hu) he
    · rw [hback v c] at hd
      exact h.walk v d hd

/-- All neighbours of `u` have been looked at. -/
theorem Mid.finish {g : Rows α} {root : Nat} {done : List Nat} {u : Nat} {q : List Nat} {D par : Nat → Option Nat}
    (h : Mid g root done u (nbrs g u) q D par) : Inv g root (done ++ [u]) q D par := by
  have hassoc : done ++ [u] ++ q = done ++ u :: q := by simp
  obtain ⟨du, hu⟩ := h.self
  have hmono := (List.pairwise_cons.1 (List.pairwise_append.1 h.mono).2.1).1
  constructor
  · rw [hassoc]; exact h.nodup
  · rw [hassoc]; exact h.disc
  · exact h.root0
  · exact h.rootpar
  · exact h.parD
  · rw [hassoc]; exact h.mono
  · intro a ha v hv x y hx hy
    rw [hassoc] at hv
    have h1 := h.near v hv x du hx hu
    have h2 := hmono a ha du y hu hy
    omega
  · intro v d hd
    rw [List.length_append]
    exact h.bound v d hd
  · intro v hv w hw
    rcases List.mem_append.1 hv with hv | hv
    · exact h.closed v hv w hw
    · simp at hv; subst hv
      exact h.here w hw
  · exact h.tree
  · exact h.walk

/-- When nothing is waiting, the distances recorded are the distances. -/
theorem Inv.dist {g : Rows α} {root : Nat} {done : List Nat} {D par : Nat → Option Nat} (h : Inv g root done [] D par) (v d : Nat) :
    D v = some d ↔ IsDist g root v d := by
  have hub : ∀ {v k : Nat}, Walk g root v k → ∃ d, D v = some d ∧ d ≤ k := by
    intro v k hw
    induction hw with
    | nil => exact ⟨0, h.root0, Nat.le_refl _⟩
    | snoc hw he ih =>
      obtain ⟨d, h1, h2⟩ := ih
      have hm := (h.disc _).2 ⟨d, h1⟩
      rw [List.append_nil] at hm
      obtain ⟨x, y, h3, h4, h5⟩ := h.closed _ hm _ he
      rw [h1] at h3; cases h3
      exact ⟨y, h4, by omega⟩
  constructor
  · intro hd
    refine ⟨h.walk v d hd, ?_⟩
    intro k hk
    obtain ⟨d', h1, h2⟩ := hub hk
    rw [hd] at h1; cases h1; exact h2
  · rintro ⟨h1, h2⟩
    obtain ⟨d', h3, h4⟩ := hub h1
    have := h2 d' (h.walk v d' h3)
    rw [h3]; congr 1; omega

theorem Inv.tree_of {g : Rows α} {root : Nat} {done : List Nat} {D par : Nat → Option Nat} (h : Inv g root done [] D par) :
    BfsTree g root par where
  rootPar := h.rootpar
  reach v := by
    rw [h.parD v]
    constructor
    · rintro ⟨d, hd⟩; exact ⟨d, h.walk v d hd⟩
    · intro hr
      obtain ⟨d, hd⟩ := hr.exists_dist
      exact ⟨d, (h.dist v d).2 hd⟩
  edge v u hv hu := by
    obtain ⟨h1, _, x, h3, h4⟩ := h.tree v u hv hu
    exact ⟨h1, x, (h.dist u x).1 h3, (h.dist v (x + 1)).1 h4⟩

theorem Inv.mem_done_iff {g : Rows α} {root : Nat} {done : List Nat} {D par : Nat → Option Nat} (h : Inv g root done [] D par) (v : Nat) :
    v ∈ done ↔ Reachable g root v := by
  have := h.disc v
  rw [List.append_nil] at this
  rw [this]
  constructor
  · rintro ⟨d, hd⟩; exact ⟨d, h.walk v d hd⟩
  · intro hr
    obtain ⟨d, hd⟩ := hr.exists_dist
    exact ⟨d, (h.dist v d).2 hd⟩

/-- Vertices discovered are vertices of the graph. -/
theorem Inv.lt {g : Rows α} (hg : InRange g) {root : Nat} (hr : root < g.length) {done q : List Nat} {D par : Nat → Option Nat}
    (h : Inv g root done q D par) {v : Nat} (hv : v ∈ done ++ q) : v < g.length := by
  obtain ⟨d, hd⟩ := (h.disc v).1 hv
  exact (h.walk v d hd).lt hg hr

theorem Mid.lt {g : Rows α} (hg : InRange g) {root : Nat} (hr : root < g.length) {done : List Nat} {u : Nat} {sc q : List Nat}
    {D par : Nat → Option Nat} (h : Mid g root done u sc q D par) {v : Nat} (hv : v ∈ done ++ u :: q) : v < g.length := by
  obtain ⟨d, hd⟩ := (h.disc v).1 hv
  exact (h.walk v d hd).lt hg hr

theorem nodup_length_le {l : List Nat} {n : Nat} (h : l.Nodup) (hlt : ∀ x ∈ l, x < n) : l.length ≤ n := by
  have : l.Subperm (List.range n) := List.Nodup.subperm h (fun x hx => List.mem_range.2 (hlt x hx))
  simpa using this.length_le

theorem Inv.length_le {g : Rows α} (hg : InRange g) {root : Nat} (hr : root < g.length) {done q : List Nat} {D par : Nat → Option Nat}
    (h : Inv g root done q D par) : (done ++ q).length ≤ g.length :=
  nodup_length_le h.nodup (fun _ hv => h.lt hg hr hv)

theorem Mid.length_le {g : Rows α} (hg : InRange g) {root : Nat} (hr : root < g.length) {done : List Nat} {u : Nat} {sc q : List Nat}
    {D par : Nat → Option Nat} (h : Mid g root done u sc q D par) : (done ++ u :: q).length ≤ g.length :=
  nodup_length_le h.nodup (fun _ hv => h.lt hg hr hv)

/-- Distances are smaller than the number of vertices. -/
theorem Mid.D_lt {g : Rows α} (hg : InRange g) {root : Nat} (hr : root < g.length) {done : List Nat} {u : Nat} {sc q : List Nat}
    {D par : Nat → Option Nat} (h : Mid g root done u sc q D par) {v d : Nat} (hd : D v = some d) : d < g.length := by
  have hlen := h.length_le hg hr
  simp only [List.length_append, List.length_cons] at hlen
  obtain ⟨du, hu⟩ := h.self
  have hbu := h.boundU du hu
  rcases List.mem_append.1 ((h.disc v).2 ⟨d, hd⟩) with hm | hm
  · have := (List.pairwise_append.1 h.mono).2.2 v hm u (by simp) d du hd hu
    omega
  · rcases List.mem_cons.1 hm with rfl | hm
    · rw [hu] at hd; cases hd; omega
    · have := h.bound v d hd
      have : 0 < q.length := List.length_pos_of_mem hm
      omega

theorem Inv.par_lt {g : Rows α} (hg : InRange g) {root : Nat} (hr : root < g.length) {done q : List Nat} {D par : Nat → Option Nat}
    (h : Inv g root done q D par) {v p : Nat} (hp : par v = some p) : p < g.length := by
  by_cases c : v = root
  · subst c; rw [h.rootpar] at hp; cases hp; exact hr
  · exact h.lt hg hr (List.mem_append_left _ (h.tree v p c hp).2.1)

/-- The array `a` holds the partial map `f` on `[0, n)`, with `inf` for undefined. -/
def Arr (inf n : Nat) (f : Nat → Option Nat) (a : List Nat) : Prop :=
  a.length = n ∧ ∀ v, v < n → a[v]? = some ((f v).getD inf)

theorem Arr.replicate (inf n : Nat) : Arr inf n (fun _ => none) (List.replicate n inf) :=
  ⟨by simp, fun v hv => by simp [hv]⟩

theorem Arr.set {inf n : Nat} {f : Nat → Option Nat} {a : List Nat} (h : Arr inf n f a) {v : Nat} (hv : v < n) (x : Nat) :
    Arr inf n (upd f v x) (a.set v x) := by
  refine ⟨by simp [h.1], ?_⟩
  intro w hw
  rw [List.getElem?_set]
  by_cases c : v = w
  · subst c; simp [upd, h.1, hv]
  · have : w ≠ v := fun e => c e.symm
    rw [if_neg c, h.2 w hw]; simp [upd, this]

end NW.Fifo
