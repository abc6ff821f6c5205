import Verif.Model.Sssp
import Verif.Lemmas.ListRes
import Verif.Lemmas.Fifo
import Verif.Lemmas.Dist
import Mathlib.Tactic.Ring

/-! # Lemmas: relaxing edges -/

namespace NW.Sssp
open Spec

variable {α τ : Type}

/-- The label of `v`. -/
def lab (inf : Nat) (d : List Nat) (v : Nat) : Nat := d.getD v inf

theorem lab_get {inf n : Nat} {d : List Nat} (hd : d.length = n) {v : Nat} (hv : v < n) : vget d v = .ok (lab inf d v) := by
  rw [vget_of_lt (by omega), lab, List.getD_eq_getElem?_getD, List.getElem?_eq_getElem (by omega)]; rfl

theorem lab_set {inf n : Nat} {d : List Nat} (hd : d.length = n) {v x : Nat} (hv : v < n) (w : Nat) :
    lab inf (d.set v x) w = if w = v then x else lab inf d w := by
  simp only [lab, List.getD_eq_getElem?_getD, List.getElem?_set]
  by_cases c : v = w
  · subst c; simp [hd, hv]
  · have : w ≠ v := fun e => c e.symm
    simp [c, this]

/-- A path from `s` whose vertices all have labels not above the weight of the path so far. -/
inductive Trail (g : Rows α) (wt : Nat × α → Nat) (s : Nat) (f : Nat → Nat) : List Nat → Nat → Nat → Prop
  | nil (h : f s = 0) : Trail g wt s f [s] s 0
  | snoc {p : List Nat} {u y : Nat} {e : Nat × α} (hp : Trail g wt s f p u y) (he : e ∈ g.getD u []) (hn : e.1 ∉ p) (hf : f e.1 ≤ y + wt e) :
      Trail g wt s f (p ++ [e.1]) e.1 (y + wt e)

theorem Trail.mono {g : Rows α} {wt : Nat × α → Nat} {s : Nat} {f f' : Nat → Nat} {p : List Nat} {u y : Nat}
    (h : Trail g wt s f p u y) (hf : ∀ v, f' v ≤ f v) : Trail g wt s f' p u y := by
  induction h with
  | nil h0 => exact .nil (by have := hf s; omega)
  | snoc _ he hn hle ih => exact .snoc ih he hn (Nat.le_trans (hf _) hle)

theorem Trail.label_le {g : Rows α} {wt : Nat × α → Nat} {s : Nat} {f : Nat → Nat} {p : List Nat} {u y : Nat}
    (h : Trail g wt s f p u y) : ∀ v ∈ p, f v ≤ y := by
  induction h with
  | nil h0 => intro v hv; simp at hv; subst hv; omega
  | snoc _ he hn hle ih =>
    intro v hv
    rcases List.mem_append.1 hv with hv | hv
    · have := ih v hv; omega
    · simp at hv; subst hv; exact hle

theorem Trail.walk {g : Rows α} {wt : Nat × α → Nat} {s : Nat} {f : Nat → Nat} {p : List Nat} {u y : Nat}
    (h : Trail g wt s f p u y) : WWalk g wt s u y := by
  induction h with
  | nil _ => exact .nil
  | snoc _ he _ _ ih => exact .snoc ih he

theorem Trail.bound {g : Rows α} {wt : Nat × α → Nat} {s W : Nat} {f : Nat → Nat} {p : List Nat} {u y : Nat}
    (hW : ∀ u, ∀ e ∈ g.getD u [], wt e ≤ W) (h : Trail g wt s f p u y) : p.Nodup ∧ y + W ≤ p.length * W := by
  induction h with
  | nil _ => simp
  | @snoc p u y e hp he hn hle ih =>
    refine ⟨?_, ?_⟩
    · rw [List.nodup_append]
      refine ⟨ih.1, by simp, ?_⟩
      rintro a ha b hb rfl
      simp at hb; subst hb
      exact hn ha
    · have := hW _ e he
      rw [List.length_append, List.length_singleton, Nat.add_mul, Nat.one_mul]
      have := ih.2
      omega

theorem Trail.lt {g : Rows α} (hg : InRange g) {wt : Nat × α → Nat} {s : Nat} (hs : s < g.length) {f : Nat → Nat} {p : List Nat} {u y : Nat}
    (h : Trail g wt s f p u y) : ∀ v ∈ p, v < g.length := by
  induction h with
  | nil _ => intro v hv; simp at hv; subst hv; exact hs
  | snoc _ he hn hle ih =>
    intro v hv
    rcases List.mem_append.1 hv with hv | hv
    · exact ih v hv
    · simp at hv; subst hv; exact hg _ _ (List.mem_map_of_mem he)

/-- The situation: a graph with in-range neighbours and weights of at most `W`, whose paths have a representable weight. -/
structure Ctx (g : Rows α) (wt : Nat × α → Nat) (s W inf dmax : Nat) : Prop where
  inRange : InRange g
  srcLt : s < g.length
  weights : ∀ u, ∀ e ∈ g.getD u [], wt e ≤ W
  noWrap : g.length * W ≤ dmax
  infPos : 0 < inf

/-- The labels are weights of paths. -/
structure Labels (g : Rows α) (wt : Nat × α → Nat) (s inf : Nat) (d : List Nat) : Prop where
  len : d.length = g.length
  src : lab inf d s = 0
  le : ∀ v, v < g.length → lab inf d v ≤ inf
  trail : ∀ v, v < g.length → lab inf d v < inf → ∃ p, Trail g wt s (lab inf d) p v (lab inf d v)

theorem Labels.no_wrap {g : Rows α} {wt : Nat × α → Nat} {s W inf dmax : Nat} (hc : Ctx g wt s W inf dmax) {d : List Nat}
    (h : Labels g wt s inf d) {u : Nat} (hu : u < g.length) (hl : lab inf d u < inf) {e : Nat × α} (he : e ∈ g.getD u []) :
    lab inf d u + wt e ≤ dmax := by
  obtain ⟨p, hp⟩ := h.trail u hu hl
  obtain ⟨h1, h2⟩ := hp.bound hc.weights
  have h3 := Fifo.nodup_length_le h1 (hp.lt hc.inRange hc.srcLt)
  have h4 := Nat.mul_le_mul_right W h3
  have h5 := hc.weights u e he
  have h6 := hc.noWrap
  omega

/-- All edges out of `u` are relaxed. -/
def Closed (g : Rows α) (wt : Nat × α → Nat) (f : Nat → Nat) (u : Nat) : Prop := ∀ e ∈ g.getD u [], f e.1 ≤ f u + wt e

/-- When all labelled vertices are closed the labels are the distances, cut off at `inf`. -/
theorem Labels.least {g : Rows α} {wt : Nat × α → Nat} {s W inf dmax : Nat} (hc : Ctx g wt s W inf dmax) {d : List Nat}
    (h : Labels g wt s inf d) (hcl : ∀ u, u < g.length → lab inf d u < inf → Closed g wt (lab inf d) u) :
    (∀ v x, IsLeast g wt s v x → lab inf d v = min x inf) ∧ ∀ v, v < g.length → ¬ Reachable g s v → lab inf d v = inf := by
  have hlt : ∀ {v y}, WWalk g wt s v y → v < g.length := by
    intro v y hw
    obtain ⟨k, hk⟩ := hw.reachable
    exact hk.lt hc.inRange hc.srcLt
  have hub : ∀ {v y}, WWalk g wt s v y → lab inf d v ≤ y := by
    intro v y hw
    induction hw with
    | nil => rw [h.src]
    | @snoc u x e hw he ih =>
      have hv := h.le e.1 (hlt (.snoc hw he))
      rcases Nat.lt_or_ge (lab inf d u) inf with c | c
      · have := hcl u (hlt hw) c e he
        omega
      · omega
  constructor
  · intro v x hx
    have h1 := hub hx.1
    have h2 := h.le v (hlt hx.1)
    rcases Nat.lt_or_ge (lab inf d v) inf with c | c
    · obtain ⟨p, hp⟩ := h.trail v (hlt hx.1) c
      have := hx.2 _ hp.walk
      omega
    · omega
  · intro v hv hn
    rcases Nat.lt_or_ge (lab inf d v) inf with c | c
    · obtain ⟨p, hp⟩ := h.trail v hv c
      exact absurd hp.walk.reachable hn
    · have := h.le v hv; omega

theorem Walk.wwalk {g : Rows α} {wt : Nat × α → Nat} {s W v k : Nat} (hW : ∀ u, ∀ e ∈ g.getD u [], wt e ≤ W) (h : Walk g s v k) :
    ∃ x, WWalk g wt s v x ∧ x ≤ k * W := by
  induction h with
  | nil => exact ⟨0, .nil, Nat.zero_le _⟩
  | snoc _ he ih =>
    obtain ⟨x, h1, h2⟩ := ih
    obtain ⟨e, k1, rfl⟩ := List.mem_map.1 he
    refine ⟨_, .snoc h1 k1, ?_⟩
    have := hW _ e k1
    rw [Nat.add_mul, Nat.one_mul]
    omega

/-- The least weight of a walk is at most `W` for every vertex. -/
theorem least_le {g : Rows α} {wt : Nat × α → Nat} {s W v x : Nat} (hg : InRange g) (hs : s < g.length)
    (hW : ∀ u, ∀ e ∈ g.getD u [], wt e ≤ W) (h : IsLeast g wt s v x) : x ≤ g.length * W := by
  obtain ⟨d, hd⟩ := h.1.reachable.exists_dist
  obtain ⟨y, h1, h2⟩ := Walk.wwalk hW hd.1
  have h3 := hd.lt_length hg hs
  have := Nat.mul_le_mul_right W (Nat.le_of_lt h3)
  have := h.2 y h1
  omega

/-- Lowering the label of `e.1`. -/
theorem Labels.lower {g : Rows α} {wt : Nat × α → Nat} {s W inf dmax : Nat} (hc : Ctx g wt s W inf dmax) {d : List Nat}
    (h : Labels g wt s inf d) {u : Nat} (hu : u < g.length) (hl : lab inf d u < inf) {e : Nat × α} (he : e ∈ g.getD u [])
    (hlt : lab inf d u + wt e < lab inf d e.1) :
    Labels g wt s inf (d.set e.1 (lab inf d u + wt e)) ∧ (∀ v, lab inf (d.set e.1 (lab inf d u + wt e)) v ≤ lab inf d v) ∧
      lab inf (d.set e.1 (lab inf d u + wt e)) u = lab inf d u ∧ (d.set e.1 (lab inf d u + wt e)).sum < d.sum := by
  have hv : e.1 < g.length := hc.inRange _ _ (List.mem_map_of_mem he)
  have hset := fun w => lab_set (inf := inf) h.len (x := lab inf d u + wt e) hv w
  have hmono : ∀ v, lab inf (d.set e.1 (lab inf d u + wt e)) v ≤ lab inf d v := by
    intro v; rw [hset v]; split
    · next h => subst h; omega
    · exact Nat.le_refl _
  have hue : u ≠ e.1 := by intro heq; rw [← heq] at hlt; omega
  refine ⟨⟨by simp [h.len], ?_, ?_, ?_⟩, hmono, ?_, ?_⟩
  · have := hmono s; have := h.src; omega
  · intro v hvn; exact Nat.le_trans (hmono v) (h.le v hvn)
  · intro v hvn hvl
    rw [hset v] at hvl ⊢
    by_cases c : v = e.1
    · subst c
      rw [if_pos rfl]
      obtain ⟨p, hp⟩ := h.trail u hu hl
      refine ⟨p ++ [e.1], .snoc (hp.mono hmono) he ?_ ?_⟩
      · intro hm
        have := hp.label_le _ hm
        omega
      · rw [hset, if_pos rfl]
    · rw [if_neg c] at hvl ⊢
      obtain ⟨p, hp⟩ := h.trail v hvn hvl
      exact ⟨p, hp.mono hmono⟩
  · rw [hset, if_neg hue]
  · have hget : d[e.1]? = some (lab inf d e.1) := by
      rw [lab, List.getD_eq_getElem?_getD, List.getElem?_eq_getElem (by rw [h.len]; exact hv)]; rfl
    have := sum_map_set_lt id hget hlt
    simpa using this

/-- Lowering a label to the weight of a path, whose vertices may have got smaller labels in the meantime. -/
theorem Labels.lowerTo {g : Rows α} {wt : Nat × α → Nat} {s W inf dmax : Nat} (hc : Ctx g wt s W inf dmax) {d : List Nat}
    (h : Labels g wt s inf d) {p : List Nat} {u y : Nat} (hp : Trail g wt s (lab inf d) p u y) {e : Nat × α} (he : e ∈ g.getD u [])
    (hlt : y + wt e < lab inf d e.1) :
    Labels g wt s inf (d.set e.1 (y + wt e)) ∧ (∀ v, lab inf (d.set e.1 (y + wt e)) v ≤ lab inf d v) ∧ (d.set e.1 (y + wt e)).sum < d.sum := by
  have hv : e.1 < g.length := hc.inRange _ _ (List.mem_map_of_mem he)
  have hset := fun w => lab_set (inf := inf) h.len (x := y + wt e) hv w
  have hmono : ∀ v, lab inf (d.set e.1 (y + wt e)) v ≤ lab inf d v := by
    intro v; rw [hset v]; split
    · next h => subst h; omega
    · exact Nat.le_refl _
  refine ⟨⟨by simp [h.len], ?_, ?_, ?_⟩, hmono, ?_⟩
  · have := hmono s; have := h.src; omega
  · intro v hvn; exact Nat.le_trans (hmono v) (h.le v hvn)
  · intro v hvn hvl
    rw [hset v] at hvl ⊢
    by_cases c : v = e.1
    · subst c
      rw [if_pos rfl]
      refine ⟨p ++ [e.1], .snoc (hp.mono hmono) he ?_ ?_⟩
      · intro hm
        have := hp.label_le _ hm
        omega
      · rw [hset, if_pos rfl]
    · rw [if_neg c] at hvl ⊢
      obtain ⟨p, hp⟩ := h.trail v hvn hvl
      exact ⟨p, hp.mono hmono⟩
  · have hget : d[e.1]? = some (lab inf d e.1) := by
      rw [lab, List.getD_eq_getElem?_getD, List.getElem?_eq_getElem (by rw [h.len]; exact hv)]; rfl
    have := sum_map_set_lt id hget hlt
    simpa using this

/-- Scanning the row of a labelled vertex `u` relaxes all its edges; vertices whose label drops are pushed.  `Pend q z l` says that the queue `q` will
still handle vertex `z` with label `l`; `V` is an invariant of the queue. -/
theorem scan_row {g : Rows α} {wt : Nat × α → Nat} {s W inf dmax : Nat} (hc : Ctx g wt s W inf dmax)
    (push : Nat → Nat → τ → Res τ) (V : (Nat → Nat) → τ → Prop) (Pend : τ → Nat → Nat → Prop) (lo : Nat)
    (hmono : ∀ f f' q, V f q → (∀ v, f' v ≤ f v) → V f' q)
    (hpush : ∀ f q j nd, V f q → j < g.length → f j = nd → lo ≤ nd → nd < inf →
      ∃ q', push j nd q = .ok q' ∧ V f q' ∧ Pend q' j nd ∧ ∀ z l, Pend q z l → Pend q' z l)
    {d : List Nat} {q : τ} (hL : Labels g wt s inf d) (hV : V (lab inf d) q) {u : Nat} (hu : u < g.length) (hl : lab inf d u < inf) (hlo : lo ≤ lab inf d u)
    (hP : ∀ z, z < g.length → lab inf d z < inf → z ≠ u → Pend q z (lab inf d z) ∨ Closed g wt (lab inf d) z) :
    ∃ d' q', (g.getD u []).foldlM (relax wt dmax push u) (d, q) = .ok (d', q') ∧ Labels g wt s inf d' ∧ V (lab inf d') q' ∧
      (∀ v, lab inf d' v ≤ lab inf d v) ∧ (∀ z l, Pend q z l → Pend q' z l) ∧
      (∀ z, z < g.length → lab inf d' z < inf → Pend q' z (lab inf d' z) ∨ Closed g wt (lab inf d') z) ∧
      ((d' = d ∧ q' = q) ∨ d'.sum < d.sum) := by
  obtain ⟨⟨d', q'⟩, h1, h2⟩ := foldlM_list_inv (l := g.getD u []) (f := relax wt dmax push u) (s := (d, q))
    (fun pre st => Labels g wt s inf st.1 ∧ V (lab inf st.1) st.2 ∧ (∀ v, lab inf st.1 v ≤ lab inf d v) ∧ lab inf st.1 u = lab inf d u ∧
      (∀ z l, Pend q z l → Pend st.2 z l) ∧ (∀ e ∈ pre, lab inf st.1 e.1 ≤ lab inf d u + wt e) ∧
      (∀ z, z < g.length → lab inf st.1 z < inf → z ≠ u → Pend st.2 z (lab inf st.1 z) ∨ Closed g wt (lab inf st.1) z) ∧
      ((st.1 = d ∧ st.2 = q) ∨ st.1.sum < d.sum))
    ⟨hL, hV, fun _ => Nat.le_refl _, rfl, fun _ _ h => h, by simp, hP, Or.inl ⟨rfl, rfl⟩⟩
    (by
      rintro pre e post hpe ⟨d₁, q₁⟩ ⟨a1, a2, a3, a4, a5, a6, a7, a8⟩
      simp only at a1 a2 a3 a4 a5 a6 a7 a8
      have he : e ∈ g.getD u [] := by rw [hpe]; simp
      have hv : e.1 < g.length := hc.inRange _ _ (List.mem_map_of_mem he)
      have hl₁ : lab inf d₁ u < inf := by omega
      have hmod : (lab inf d₁ u + wt e) % (dmax + 1) = lab inf d₁ u + wt e :=
        Nat.mod_eq_of_lt (Nat.lt_succ_of_le (a1.no_wrap hc hu hl₁ he))
      unfold relax
      rw [lab_get a1.len hu, res_bind_ok, lab_get a1.len hv, res_bind_ok, hmod]
      by_cases c : lab inf d₁ u + wt e < lab inf d₁ e.1
      · rw [if_pos c, vset_of_lt (by rw [a1.len]; exact hv), res_bind_ok]
        obtain ⟨b1, b2, b3, b4⟩ := a1.lower hc hu hl₁ he c
        obtain ⟨q₂, c1, c2, c3, c4⟩ := hpush _ q₁ e.1 (lab inf d₁ u + wt e) (hmono _ _ _ a2 b2) hv
          (by rw [lab_set (n := g.length) a1.len hv, if_pos rfl]) (by omega) (by have := a1.le e.1 hv; omega)
        rw [c1, res_bind_ok]
        have hset := fun w => lab_set (inf := inf) a1.len (x := lab inf d₁ u + wt e) hv w
        refine ⟨_, rfl, b1, c2, fun v => Nat.le_trans (b2 v) (a3 v), by rw [b3, a4], fun z l h => c4 z l (a5 z l h), ?_, ?_, ?_⟩
        · intro x hx
          rcases List.mem_append.1 hx with hx | hx
          · exact Nat.le_trans (b2 _) (a6 x hx)
          · simp at hx; subst hx
            rw [hset, if_pos rfl, a4]
        · intro z hz hzl hzu
          rw [hset z] at hzl ⊢
          by_cases cz : z = e.1
          · rw [if_pos cz, cz]; exact Or.inl c3
          · rw [if_neg cz] at hzl ⊢
            rcases a7 z hz hzl hzu with h | h
            · exact Or.inl (c4 _ _ h)
            · right
              intro x hx
              have := h x hx
              have := b2 x.1
              rw [hset z, if_neg cz]
              exact Nat.le_trans (b2 x.1) (h x hx)
        · right
          rcases a8 with ⟨h, _⟩ | h
          · rw [h] at b4; rw [h]; exact b4
          · exact Nat.lt_trans b4 h
      · rw [if_neg c]
        refine ⟨_, rfl, a1, a2, a3, a4, a5, ?_, a7, a8⟩
        intro x hx
        rcases List.mem_append.1 hx with hx | hx
        · exact a6 x hx
        · simp at hx; subst hx
          show lab inf d₁ x.1 ≤ _
          omega)
  obtain ⟨a1, a2, a3, a4, a5, a6, a7, a8⟩ := h2
  simp only at a1 a2 a3 a4 a5 a6 a7 a8
  refine ⟨d', q', h1, a1, a2, a3, a5, ?_, a8⟩
  intro z hz hzl
  by_cases cz : z = u
  · subst cz
    right
    intro e he
    have := a6 e he
    omega
  · exact a7 z hz hzl cz

/-- The initial labels. -/
theorem labels_init {g : Rows α} {wt : Nat × α → Nat} {s W inf dmax : Nat} (hc : Ctx g wt s W inf dmax) :
    Labels g wt s inf ((List.replicate g.length inf).set s 0) ∧
      ∀ z, z < g.length → lab inf ((List.replicate g.length inf).set s 0) z < inf → z = s := by
  have hlab : ∀ v, lab inf ((List.replicate g.length inf).set s 0) v = if v = s then 0 else inf := by
    intro v
    rw [lab_set (n := g.length) (by simp) hc.srcLt]
    split
    · rfl
    · simp [lab, List.getD_eq_getElem?_getD, List.getElem?_replicate]
      split <;> rfl
  refine ⟨⟨by simp, by rw [hlab]; simp, ?_, ?_⟩, ?_⟩
  · intro v _; rw [hlab]; split <;> omega
  · intro v _ hv
    rw [hlab] at hv ⊢
    split at hv
    · next h =>
      subst h
      rw [if_pos rfl]
      exact ⟨[v], .nil (by rw [hlab]; simp)⟩
    · omega
  · intro z _ hz
    rw [hlab] at hz
    split at hz
    · assumption
    · omega

end NW.Sssp
