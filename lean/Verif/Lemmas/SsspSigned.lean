import Verif.Model.SsspSigned
import Verif.Props.Sssp
import Verif.Props.ApbDijkstra

/-! # Lemmas: `delta_stepping` with signed distances does the same as with unsigned ones when no weight is negative -/

namespace NW.SsspSigned
open Spec
open Sssp (lab Labels SInv Ctx)

/-- The distances as integers. -/
def up (d : List Nat) : List Int := d.map fun x : Nat => (x : Int)

/-- The number of bins is small. -/
def Small (delta inf : Nat) (bins : List (List Nat)) : Prop := ∀ t, t < bins.length → delta * t ≤ inf

variable {w cap delta inf s W : Nat} {g : Rows Int} {wt : Nat × Int → Int}

theorem up_get {d : List Nat} {i x : Nat} (h : vget d i = .ok x) : vget (up d) i = .ok (x : Int) := by
  rw [vget_eq_ok] at h ⊢
  simp [up, h]

theorem up_set {d : List Nat} {i : Nat} (h : i < d.length) (x : Nat) : vset (up d) i (x : Int) = .ok (up (d.set i x)) := by
  rw [vset_of_lt (by simpa [up] using h)]
  simp [up, List.map_set]

theorem toSize_nat {x : Nat} (h : x < 2 ^ w) : toSize w (x : Int) = x := by
  unfold toSize
  have h2 : ((2 : Int) ^ w) = ((2 ^ w : Nat) : Int) := by push_cast; rfl
  rw [h2, ← Int.natCast_mod, Nat.mod_eq_of_lt h, Int.toNat_natCast]

theorem pushBin_sim (hd : 0 < delta) (hw : inf + 1 < 2 ^ w) (hcap : inf / delta + 1 ≤ cap) (j : Nat) {nd : Nat} (hn : nd ≤ inf) {bins : List (List Nat)} (hb : Small delta inf bins) :
    ∃ b', Sssp.pushBin delta j nd bins = .ok b' ∧ pushBin w cap delta j nd bins = .ok b' ∧ Small delta inf b' := by
  have hdiv : nd / delta ≤ nd := Nat.div_le_self _ _
  have hdm : nd / delta ≤ inf / delta := Nat.div_le_div_right hn
  have hq : (nd : Int).tdiv (delta : Int) = ((nd / delta : Nat) : Int) := by
    rw [Int.tdiv_eq_ediv_of_nonneg (by omega)]; push_cast; rfl
  unfold Sssp.pushBin pushBin
  rw [if_neg (show ¬ delta = 0 by omega), if_neg (show ¬ (delta : Int) = 0 by omega), hq, toSize_nat (by omega)]
  dsimp only
  by_cases c : nd / delta ≥ bins.length
  · rw [if_pos c, if_pos c, Nat.mod_eq_of_lt (by omega)]
    unfold resize
    rw [if_neg (by omega), List.take_of_length_le (by omega)]
    have hlen : nd / delta < (bins ++ List.replicate (nd / delta + 1 - bins.length) ([] : List Nat)).length := by simp; omega
    rw [show (pure (bins ++ List.replicate (nd / delta + 1 - bins.length) []) : Res (List (List Nat))) = .ok _ from rfl, res_bind_ok, vget_of_lt hlen, res_bind_ok, vset_of_lt hlen]
    refine ⟨_, rfl, rfl, ?_⟩
    intro t ht
    simp at ht
    have h1 : t ≤ nd / delta := by omega
    have h2 := (Nat.le_div_iff_mul_le hd).1 h1
    rw [Nat.mul_comm]; omega
  · rw [if_neg c, if_neg c]
    have hlen : nd / delta < bins.length := by omega
    rw [show (pure bins : Res (List (List Nat))) = .ok bins from rfl, res_bind_ok, vget_of_lt hlen, res_bind_ok, vset_of_lt hlen]
    refine ⟨_, rfl, rfl, ?_⟩
    intro t ht
    exact hb t (by simpa using ht)

theorem row_sim (hc : Ctx g (fun e => (wt e).toNat) s W inf inf) (hd : 0 < delta) (hw : inf + 1 < 2 ^ w) (hcap : inf / delta + 1 ≤ cap)
    {u : Nat} (hu : u < g.length) (hnn : ∀ e ∈ g.getD u [], 0 ≤ wt e) (l : List (Nat × Int)) : (∀ e ∈ l, e ∈ g.getD u []) → ∀ d bins,
    Labels g (fun e => (wt e).toNat) s inf d → lab inf d u < inf → Small delta inf bins →
    ∃ d' b', l.foldlM (Sssp.relax (fun e => (wt e).toNat) inf (Sssp.pushBin delta) u) (d, bins) = .ok (d', b') ∧
      l.foldlM (relax w cap delta wt u) (up d, bins) = .ok (up d', b') ∧ Small delta inf b' := by
  induction l with
  | nil => intro _ d bins _ _ hb; exact ⟨d, bins, rfl, rfl, hb⟩
  | cons e l ih =>
    intro hl d bins hL hlu hb
    have he : e ∈ g.getD u [] := hl e (by simp)
    have hv : e.1 < g.length := hc.inRange _ _ (List.mem_map_of_mem he)
    have hle := hL.no_wrap hc hu hlu he
    have h0 := hnn e he
    have hwt : ((wt e).toNat : Int) = wt e := Int.toNat_of_nonneg h0
    have hmod : (lab inf d u + (wt e).toNat) % (inf + 1) = lab inf d u + (wt e).toNat := Nat.mod_eq_of_lt (by omega)
    have hsum : (lab inf d u : Int) + wt e = ((lab inf d u + (wt e).toNat : Nat) : Int) := by push_cast; rw [hwt]
    rw [List.foldlM_cons, List.foldlM_cons]
    have hgu := Sssp.lab_get (inf := inf) hL.len hu
    have hgv := Sssp.lab_get (inf := inf) hL.len hv
    unfold Sssp.relax relax
    dsimp only
    rw [hgu, res_bind_ok, hgv, res_bind_ok, hmod, up_get hgu, res_bind_ok, up_get hgv, res_bind_ok, hsum]
    by_cases c : lab inf d u + (wt e).toNat < lab inf d e.1
    · rw [if_pos c, if_pos (by exact_mod_cast c), vset_of_lt (by rw [hL.len]; exact hv), up_set (by rw [hL.len]; exact hv), res_bind_ok, res_bind_ok]
      obtain ⟨b', p1, p2, p3⟩ := pushBin_sim hd hw hcap e.1 hle hb
      rw [p1, p2, res_bind_ok, res_bind_ok]
      obtain ⟨q1, q2, q3, q4⟩ := hL.lower hc hu hlu he c
      exact ih (fun x hx => hl x (by simp [hx])) _ _ q1 (by rw [q3]; exact hlu) p3
    · rw [if_neg c, if_neg (by exact_mod_cast c)]
      exact ih (fun x hx => hl x (by simp [hx])) _ _ hL hlu hb

variable {top : Nat}

theorem vertex_sim (hc : Ctx g (fun e => (wt e).toNat) s W inf inf) (hd : 0 < delta) (hw : inf + 1 < 2 ^ w) (hcap : inf / delta + 1 ≤ cap)
    (hnn : ∀ u, ∀ e ∈ g.getD u [], 0 ≤ wt e) (htop : delta * top ≤ inf) {i : Nat} {rest d : List Nat} {bins : List (List Nat)}
    (h : SInv g (fun e => (wt e).toNat) s inf delta top (i :: rest) d bins) (hb : Small delta inf bins) :
    ∃ d' b', Sssp.sVertex g (fun e => (wt e).toNat) inf delta top (d, bins) i = .ok (d', b') ∧ sVertex w cap g wt delta top (up d, bins) i = .ok (up d', b') ∧
      Small delta inf b' ∧ SInv g (fun e => (wt e).toNat) s inf delta top rest d' b' := by
  obtain ⟨d', b', h1, h2, -⟩ := Sssp.sVertex_ok hc hd h
  obtain ⟨hi, hil⟩ := h.front i (by simp)
  refine ⟨d', b', h1, ?_⟩
  have hg := Sssp.lab_get (inf := inf) h.labels.len hi
  unfold Sssp.sVertex at h1
  unfold sVertex
  dsimp only at h1 ⊢
  rw [hg, res_bind_ok] at h1
  rw [up_get hg, res_bind_ok, toSize_nat (by omega), show (delta : Int) * (top : Int) = ((delta * top : Nat) : Int) by push_cast; rfl, toSize_nat (by omega)]
  by_cases c : lab inf d i ≥ delta * top
  · rw [if_pos c, Bfs.vget_row hi, res_bind_ok] at h1
    rw [if_pos c, Bfs.vget_row hi, res_bind_ok]
    obtain ⟨d₁, b₁, k1, k2, k3⟩ := row_sim (w := w) (cap := cap) hc hd hw hcap hi (hnn i) (g.getD i []) (fun _ h => h) d bins h.labels hil hb
    rw [k1] at h1
    cases h1
    exact ⟨k2, k3, h2⟩
  · rw [if_neg c] at h1
    rw [if_neg c]
    cases h1
    exact ⟨rfl, hb, h2⟩

theorem frontier_sim (hc : Ctx g (fun e => (wt e).toNat) s W inf inf) (hd : 0 < delta) (hw : inf + 1 < 2 ^ w) (hcap : inf / delta + 1 ≤ cap)
    (hnn : ∀ u, ∀ e ∈ g.getD u [], 0 ≤ wt e) (htop : delta * top ≤ inf) {rest d : List Nat} {bins : List (List Nat)}
    (h : SInv g (fun e => (wt e).toNat) s inf delta top rest d bins) (hb : Small delta inf bins) :
    ∃ d' b', rest.foldlM (Sssp.sVertex g (fun e => (wt e).toNat) inf delta top) (d, bins) = .ok (d', b') ∧
      rest.foldlM (sVertex w cap g wt delta top) (up d, bins) = .ok (up d', b') ∧
      Small delta inf b' ∧ SInv g (fun e => (wt e).toNat) s inf delta top [] d' b' := by
  induction rest generalizing d bins with
  | nil => exact ⟨d, bins, rfl, rfl, hb, h⟩
  | cons i rest ih =>
    obtain ⟨d₁, b₁, h1, h2, h3, h4⟩ := vertex_sim hc hd hw hcap hnn htop h hb
    obtain ⟨d₂, b₂, k1, k2, k3, k4⟩ := ih h4 h3
    exact ⟨d₂, b₂, by rw [List.foldlM_cons, h1, res_bind_ok, k1], by rw [List.foldlM_cons, h2, res_bind_ok, k2], k3, k4⟩

theorem loop_sim (hc : Ctx g (fun e => (wt e).toNat) s W inf inf) (hd : 0 < delta) (hw : inf + 1 < 2 ^ w) (hcap : inf / delta + 1 ≤ cap)
    (hnn : ∀ u, ∀ e ∈ g.getD u [], 0 ≤ wt e) {st : List Nat × List (List Nat) × Nat} {o : Res (List Nat)}
    (hl : Loop (Sssp.sBody g (fun e => (wt e).toNat) inf delta) st o) : SInv g (fun e => (wt e).toNat) s inf delta st.2.2 [] st.1 st.2.1 → Small delta inf st.2.1 →
    Loop (sBody w cap g wt delta) (up st.1, st.2.1, st.2.2) (o.map up) := by
  have key : ∀ st : List Nat × List (List Nat) × Nat, SInv g (fun e => (wt e).toNat) s inf delta st.2.2 [] st.1 st.2.1 → Small delta inf st.2.1 →
      (¬ st.2.2 < st.2.1.length ∧ Sssp.sBody g (fun e => (wt e).toNat) inf delta st = .ok (.inr st.1) ∧ sBody w cap g wt delta (up st.1, st.2.1, st.2.2) = .ok (.inr (up st.1))) ∨
      ∃ st' : List Nat × List (List Nat) × Nat, Sssp.sBody g (fun e => (wt e).toNat) inf delta st = .ok (.inl st') ∧
        sBody w cap g wt delta (up st.1, st.2.1, st.2.2) = .ok (.inl (up st'.1, st'.2.1, st'.2.2)) ∧
        SInv g (fun e => (wt e).toNat) s inf delta st'.2.2 [] st'.1 st'.2.1 ∧ Small delta inf st'.2.1 := by
    rintro ⟨d, bins, top⟩ hI hb
    dsimp only at hI hb ⊢
    simp only [Sssp.sBody, sBody]
    by_cases c : top < bins.length
    · right
      rw [if_pos c, if_pos c, vget_of_lt c, res_bind_ok, res_bind_ok, vset_of_lt c, res_bind_ok, res_bind_ok]
      obtain ⟨d', b', k1, k2, k3, k4⟩ := frontier_sim (w := w) (cap := cap) hc hd hw hcap hnn (hb top c) (hI.start c) (by
        intro t ht
        exact hb t (by simpa using ht))
      rw [k1, k2]
      exact ⟨(d', b', Sssp.skipEmpty b' top), rfl, rfl, k4.skip, k3⟩
    · left
      rw [if_neg c, if_neg c]
      exact ⟨c, rfl, rfl⟩
  induction hl with
  | done h =>
    intro hI hb
    rcases key _ hI hb with ⟨-, h1, h2⟩ | ⟨_, h1, -⟩
    · rw [h] at h1; cases h1; exact .done h2
    · rw [h] at h1; cases h1
  | fault h =>
    intro hI hb
    rcases key _ hI hb with ⟨-, h1, -⟩ | ⟨_, h1, -⟩ <;> (rw [h] at h1; cases h1)
  | step h _ ih =>
    intro hI hb
    rcases key _ hI hb with ⟨-, h1, -⟩ | ⟨st', h1, h2, h3, h4⟩
    · rw [h] at h1; cases h1
    · rw [h] at h1; cases h1
      exact .step h2 (ih h3 h4)

theorem walk_up (hnn : ∀ u, ∀ e ∈ g.getD u [], 0 ≤ wt e) {v x : Nat} (h : WWalk g (fun e => (wt e).toNat) s v x) : ∃ k, SWalk g wt s v k (x : Int) := by
  induction h with
  | nil => exact ⟨0, .nil⟩
  | @snoc u x e _ he ih =>
    obtain ⟨k, hk⟩ := ih
    refine ⟨k + 1, ?_⟩
    have := SWalk.snoc hk he
    rwa [show ((x + (wt e).toNat : Nat) : Int) = (x : Int) + wt e by push_cast; rw [Int.toNat_of_nonneg (hnn u e he)]]

theorem walk_down (hnn : ∀ u, ∀ e ∈ g.getD u [], 0 ≤ wt e) {v k : Nat} {y : Int} (h : SWalk g wt s v k y) : ∃ x : Nat, y = (x : Int) ∧ WWalk g (fun e => (wt e).toNat) s v x := by
  induction h with
  | nil => exact ⟨0, rfl, .nil⟩
  | @snoc u k y e _ he ih =>
    obtain ⟨x, rfl, hx⟩ := ih
    refine ⟨x + (wt e).toNat, ?_, .snoc hx he⟩
    push_cast
    rw [Int.toNat_of_nonneg (hnn u e he)]

/-! ## What can be said of any run -/

theorem bind_ok {α β : Type} {m : Res α} {f : α → Res β} {b : β} (h : (m >>= f) = .ok b) : ∃ a, m = .ok a ∧ f a = .ok b := by
  cases m with
  | error e => cases h
  | ok a => exact ⟨a, rfl, h⟩

theorem foldlM_keeps {σ β : Type} {f : σ → β → Res σ} (P : σ → Prop) (l : List β) (h : ∀ x ∈ l, ∀ s s', P s → f s x = .ok s' → P s') :
    ∀ s s', P s → l.foldlM f s = .ok s' → P s' := by
  induction l with
  | nil => intro s s' hs he; cases he; exact hs
  | cons x l ih =>
    intro s s' hs he
    rw [List.foldlM_cons] at he
    obtain ⟨a, h1, h2⟩ := bind_ok he
    exact ih (fun y hy => h y (by simp [hy])) a s' (h x (by simp) s a hs h1) h2

/-- The distance of `v` is the weight of a walk. -/
def Lab (g : Rows Int) (wt : Nat × Int → Int) (s : Nat) (d : List Int) (v : Nat) : Prop := ∃ x k, d[v]? = some x ∧ SWalk g wt s v k x

/-- All distances are infinite or weights of walks, and those of the vertices in `rest` and in bins are weights of walks. -/
structure Sound (g : Rows Int) (wt : Nat × Int → Int) (s : Nat) (I : Int) (rest : List Nat) (d : List Int) (bins : List (List Nat)) : Prop where
  len : d.length = g.length
  walks : ∀ v x, d[v]? = some x → x = I ∨ ∃ k, SWalk g wt s v k x
  front : ∀ v ∈ rest, Lab g wt s d v
  bins : ∀ b ∈ bins, ∀ v ∈ b, Lab g wt s d v

variable {I D : Int}

theorem Lab.set {d : List Int} {v j k : Nat} {y : Int} (h : Lab g wt s d v) (hj : j < d.length) (hw : SWalk g wt s j k y) : Lab g wt s (d.set j y) v := by
  by_cases c : j = v
  · subst c; exact ⟨y, k, by simp [hj], hw⟩
  · obtain ⟨x, k', h1, h2⟩ := h
    exact ⟨x, k', by rw [List.getElem?_set_ne c]; exact h1, h2⟩

theorem pushBin_mem {j : Nat} {nd : Int} {bins b' : List (List Nat)} (h : pushBin w cap D j nd bins = .ok b') : ∀ b ∈ b', ∀ v ∈ b, v = j ∨ ∃ c ∈ bins, v ∈ c := by
  unfold pushBin at h
  split at h
  · cases h
  · dsimp only at h
    obtain ⟨b₁, hm, h⟩ : ∃ b₁ : List (List Nat), (∀ b ∈ b₁, ∀ v ∈ b, ∃ c ∈ bins, v ∈ c) ∧
        (vget b₁ (toSize w (nd.tdiv D)) >>= fun b => vset b₁ (toSize w (nd.tdiv D)) (b ++ [j])) = .ok b' := by
      split at h
      · obtain ⟨b₁, h1, h⟩ := bind_ok h
        refine ⟨b₁, fun b hb v hv => ?_, h⟩
        unfold resize at h1
        split at h1
        · cases h1
        · cases h1
          rcases List.mem_append.1 hb with hb | hb
          · exact ⟨b, List.mem_of_mem_take hb, hv⟩
          · rw [(List.mem_replicate.1 hb).2] at hv; cases hv
      · exact ⟨bins, fun b hb v hv => ⟨b, hb, hv⟩, h⟩
    obtain ⟨c, h2, h⟩ := bind_ok h
    have hl : toSize w (nd.tdiv D) < b₁.length := (List.getElem?_eq_some_iff.1 (vget_eq_ok.1 h2)).1
    rw [vset_of_lt hl] at h
    cases h
    intro b hb v hv
    rcases List.mem_or_eq_of_mem_set hb with hb | rfl
    · exact Or.inr (hm b hb v hv)
    · rcases List.mem_append.1 hv with hv | hv
      · exact Or.inr (hm c (List.mem_of_getElem? (vget_eq_ok.1 h2)) v hv)
      · simp at hv; exact Or.inl hv

theorem relax_sound {u : Nat} {rest : List Nat} {e : Nat × Int} (he : e ∈ g.getD u []) {st st' : List Int × List (List Nat)}
    (h : Sound g wt s I rest st.1 st.2 ∧ Lab g wt s st.1 u) (hr : relax w cap D wt u st e = .ok st') : Sound g wt s I rest st'.1 st'.2 ∧ Lab g wt s st'.1 u := by
  obtain ⟨hS, hu⟩ := h
  unfold relax at hr
  obtain ⟨di, h1, hr⟩ := bind_ok hr
  obtain ⟨dj, h2, hr⟩ := bind_ok hr
  split at hr
  · obtain ⟨d', h3, hr⟩ := bind_ok hr
    obtain ⟨b', h4, hr⟩ := bind_ok hr
    cases hr
    have hj : e.1 < st.1.length := (List.getElem?_eq_some_iff.1 (vget_eq_ok.1 h2)).1
    rw [vset_of_lt hj] at h3
    cases h3
    obtain ⟨x, k, k1, k2⟩ := hu
    rw [vget_eq_ok, k1] at h1
    obtain rfl : di = x := (Option.some.inj h1).symm
    have hw := SWalk.snoc k2 he
    refine ⟨⟨by simp [hS.len], ?_, fun v hv => (hS.front v hv).set hj hw, ?_⟩, Lab.set ⟨_, k, k1, k2⟩ hj hw⟩
    · intro v y hy
      dsimp only at hy
      by_cases c : e.1 = v
      · subst c
        rw [List.getElem?_set, if_pos rfl, if_pos hj] at hy
        cases hy
        exact Or.inr ⟨_, hw⟩
      · rw [List.getElem?_set_ne c] at hy
        exact hS.walks v y hy
    · intro b hb v hv
      rcases pushBin_mem h4 b hb v hv with rfl | ⟨c, hc, hvc⟩
      · exact ⟨_, _, by simp [hj], hw⟩
      · exact (hS.bins c hc v hvc).set hj hw
  · cases hr; exact ⟨hS, hu⟩

theorem vertex_sound {i : Nat} {rest : List Nat} {st st' : List Int × List (List Nat)} (h : Sound g wt s I (i :: rest) st.1 st.2) {top : Nat}
    (hr : sVertex w cap g wt D top st i = .ok st') : Sound g wt s I rest st'.1 st'.2 := by
  have hS : Sound g wt s I rest st.1 st.2 := ⟨h.len, h.walks, fun v hv => h.front v (by simp [hv]), h.bins⟩
  unfold sVertex at hr
  obtain ⟨di, h1, hr⟩ := bind_ok hr
  split at hr
  · obtain ⟨r, h2, hr⟩ := bind_ok hr
    have hrow : r = g.getD i [] := by
      rw [vget_eq_ok] at h2
      rw [List.getD_eq_getElem?_getD, h2]; rfl
    subst hrow
    exact (foldlM_keeps (fun st => Sound g wt s I rest st.1 st.2 ∧ Lab g wt s st.1 i) _ (fun e he s₁ s₂ hs hf => relax_sound he hs hf) st st' ⟨hS, h.front i (by simp)⟩ hr).1
  · cases hr; exact hS

theorem frontier_sound {top : Nat} (rest : List Nat) : ∀ st st' : List Int × List (List Nat), Sound g wt s I rest st.1 st.2 →
    rest.foldlM (sVertex w cap g wt D top) st = .ok st' → Sound g wt s I [] st'.1 st'.2 := by
  induction rest with
  | nil => intro st st' h hr; cases hr; exact h
  | cons i rest ih =>
    intro st st' h hr
    rw [List.foldlM_cons] at hr
    obtain ⟨a, h1, h2⟩ := bind_ok hr
    exact ih a st' (vertex_sound h h1) h2

theorem loop_sound {st : List Int × List (List Nat) × Nat} {o : Res (List Int)} (hl : Loop (sBody w cap g wt D) st o) : Sound g wt s I [] st.1 st.2.1 →
    ∀ r, o = .ok r → r.length = g.length ∧ ∀ v x, r[v]? = some x → x = I ∨ ∃ k, SWalk g wt s v k x := by
  have key : ∀ (st : List Int × List (List Nat) × Nat) (q : (List Int × List (List Nat) × Nat) ⊕ List Int), Sound g wt s I [] st.1 st.2.1 → sBody w cap g wt D st = .ok q →
      (∃ st', q = .inl st' ∧ Sound g wt s I [] st'.1 st'.2.1) ∨ q = .inr st.1 := by
    rintro ⟨d, bins, top⟩ q h hb
    simp only [sBody] at hb
    dsimp only at h
    split at hb
    · obtain ⟨fr, h1, hb⟩ := bind_ok hb
      obtain ⟨b', h2, hb⟩ := bind_ok hb
      obtain ⟨st, h3, hb⟩ := bind_ok hb
      cases hb
      left
      refine ⟨_, rfl, ?_⟩
      have ht : top < bins.length := (List.getElem?_eq_some_iff.1 (vget_eq_ok.1 h1)).1
      rw [vset_of_lt ht] at h2
      cases h2
      refine frontier_sound fr (d, bins.set top []) st ⟨h.len, h.walks, fun v hv => h.bins fr (List.mem_of_getElem? (vget_eq_ok.1 h1)) v hv, ?_⟩ h3
      intro b hb v hv
      rcases List.mem_or_eq_of_mem_set hb with hb | rfl
      · exact h.bins b hb v hv
      · cases hv
    · cases hb; exact Or.inr rfl
  induction hl with
  | done hb =>
    intro h r hr
    cases hr
    rcases key _ _ h hb with ⟨_, h1, -⟩ | h1
    · cases h1
    · cases h1; exact ⟨h.len, h.walks⟩
  | fault hb => intro _ r hr; cases hr
  | step hb _ ih =>
    intro h
    rcases key _ _ h hb with ⟨_, h1, h2⟩ | h1
    · cases h1; exact ih h2
    · cases h1

end NW.SsspSigned
