import Verif.Model.BcNoAbs
import Verif.Lemmas.BcAsyncEnd

/-! # Lemmas: the bucketed search treats the edges level by level -/

namespace NW.BcNoAbs
open Spec Fifo
open NW.Brandes (Vec)
open NW.BcWork (Node modify modify_vec guardCn guardSp guardFu guardUs)

variable {α : Type} {M inf dl : Nat} {g : Rows α} {s L : Nat} {P : List (Nat × Nat)} {F : Nat → Node} {vs : List Node} {bs : Buckets}

/-- Edge `(u, w)` lies on a shortest path and has been treated: all edges from before level `L`, and those from level `L` in `P`. -/
def R (g : Rows α) (s L : Nat) (P : List (Nat × Nat)) (u w : Nat) : Prop :=
  ∃ d, IsDist g s u d ∧ IsDist g s w (d + 1) ∧ Edge g u w ∧ (d < L ∨ (d = L ∧ (u, w) ∈ P))

/-- The nodes after the edges in `P` from level `L`. -/
structure LI (M inf : Nat) (g : Rows α) (s L : Nat) (P : List (Nat × Nat)) (F : Nat → Node) : Prop where
  predN : ∀ w < g.length, (F w).preds.Nodup
  pred : ∀ w < g.length, ∀ u, u ∈ (F w).preds ↔ R g s L P u w
  succN : ∀ u < g.length, (F u).succs.Nodup
  succ : ∀ u < g.length, ∀ w, w ∈ (F u).succs ↔ R g s L P u w
  root : (F s).l = 0 ∧ (F s).pc = 1 % M
  lvl : ∀ w < g.length, ∀ u d, R g s L P u w → IsDist g s w d → (F w).l = d
  none : ∀ w < g.length, w ≠ s → (∀ u, ¬ R g s L P u w) → (F w).l = inf
  pc : ∀ w < g.length, w ≠ s → (F w).pc = ((F w).preds.map fun u => (F u).pc).sum % M
  edge : ∀ u < g.length, ∀ w, R g s L P u w → (F u).edge w = ((F u).l, (F u).pc)
  noedge : ∀ u < g.length, ∀ w, ¬ R g s L P u w → ((F u).edge w).1 = 0 ∨ (u = w ∧ ((F u).edge w).1 = inf)

theorem R.root_not {u : Nat} (h : R g s L P u s) : False := by
  obtain ⟨d, -, h2, -⟩ := h
  have := h2.unique (IsDist.zero g s)
  omega

theorem LI.pcM (h : LI M inf g s L P F) (hM : 0 < M) {w : Nat} (hw : w < g.length) : (F w).pc < M := by
  by_cases c : w = s
  · subst c; rw [h.root.2]; exact Nat.mod_lt _ hM
  · rw [h.pc w hw c]; exact Nat.mod_lt _ hM

/-- A vertex within `L` has its level. -/
theorem LI.near (h : LI M inf g s L P F) (hg : InRange g) (hs : s < g.length) {w d : Nat} (hd : IsDist g s w d) (hL : d ≤ L) : (F w).l = d := by
  cases d with
  | zero => have := hd.of_zero; subst this; exact h.root.1
  | succ d =>
    obtain ⟨u, hu, he⟩ := hd.pred
    exact h.lvl w (hd.1.lt hg hs) u _ ⟨d, hu, hd, he, Or.inl (by omega)⟩ hd

theorem R_cons {u v : Nat} (hu : IsDist g s u L) (hv : IsDist g s v (L + 1)) (he : Edge g u v) (x y : Nat) : R g s L ((u, v) :: P) x y ↔ R g s L P x y ∨ (x = u ∧ y = v) := by
  constructor
  · rintro ⟨d, h1, h2, h3, h4 | ⟨h4, h5⟩⟩
    · exact Or.inl ⟨d, h1, h2, h3, Or.inl h4⟩
    · simp only [List.mem_cons, Prod.mk.injEq] at h5
      rcases h5 with ⟨rfl, rfl⟩ | h5
      · exact Or.inr ⟨rfl, rfl⟩
      · exact Or.inl ⟨d, h1, h2, h3, Or.inr ⟨h4, h5⟩⟩
  · rintro (⟨d, h1, h2, h3, h4 | ⟨h4, h5⟩⟩ | ⟨rfl, rfl⟩)
    · exact ⟨d, h1, h2, h3, Or.inl h4⟩
    · exact ⟨d, h1, h2, h3, Or.inr ⟨h4, List.mem_cons_of_mem _ h5⟩⟩
    · exact ⟨L, hu, hv, he, Or.inr ⟨rfl, by simp⟩⟩

theorem R_cons_old {u v d : Nat} (hv : IsDist g s v d) (hd : d ≤ L) (x y : Nat) : R g s L ((u, v) :: P) x y ↔ R g s L P x y := by
  constructor
  · rintro ⟨d', h1, h2, h3, h4 | ⟨h4, h5⟩⟩
    · exact ⟨d', h1, h2, h3, Or.inl h4⟩
    · simp only [List.mem_cons, Prod.mk.injEq] at h5
      rcases h5 with ⟨rfl, rfl⟩ | h5
      · have := h2.unique hv; omega
      · exact ⟨d', h1, h2, h3, Or.inr ⟨h4, h5⟩⟩
  · rintro ⟨d', h1, h2, h3, h4 | ⟨h4, h5⟩⟩
    · exact ⟨d', h1, h2, h3, Or.inl h4⟩
    · exact ⟨d', h1, h2, h3, Or.inr ⟨h4, List.mem_cons_of_mem _ h5⟩⟩

theorem LI.congr {P' : List (Nat × Nat)} {L' : Nat} (h : LI M inf g s L P F) (hR : ∀ x y, R g s L' P' x y ↔ R g s L P x y) : LI M inf g s L' P' F := by
  obtain ⟨a1, a2, a3, a4, a5, a6, a7, a8, a9, a10⟩ := h
  simp only [← hR] at a2 a4 a6 a7 a9 a10
  exact ⟨a1, a2, a3, a4, a5, a6, a7, a8, a9, a10⟩

/-- Nothing changes for a vertex that is not on the next level, apart from the entry of a loop. -/
theorem LI.same {u v d : Nat} (h : LI M inf g s L P F) (hv : IsDist g s v d) (hd : d ≤ L) : LI M inf g s L ((u, v) :: P) F := h.congr (R_cons_old hv hd)

/-- A new edge of a shortest path. -/
theorem LI.grow (h : LI M inf g s L P F) (hM : 0 < M) {u v : Nat} (hun : u < g.length) (hvn : v < g.length) (hu : IsDist g s u L) (hv : IsDist g s v (L + 1)) (he : Edge g u v) (hnew : (u, v) ∉ P)
    {F' : Nat → Node} (hv1 : (F' v).l = L + 1) (hv2 : (F' v).pc = ((F v).pc + (F u).pc) % M) (hv3 : (F' v).preds = u :: (F v).preds) (hv4 : (F' v).succs = []) (hv5 : (F' v).edge = (F v).edge)
    (hu1 : (F' u).l = (F u).l) (hu2 : (F' u).pc = (F u).pc) (hu3 : (F' u).preds = (F u).preds) (hu4 : (F' u).succs = v :: (F u).succs)
    (hu5 : (F' u).edge = fun w => if w = v then ((F u).l, (F u).pc) else (F u).edge w) (ho : ∀ z, z ≠ u → z ≠ v → F' z = F z) : LI M inf g s L ((u, v) :: P) F' := by
  have hR := R_cons (P := P) hu hv he
  have huv : u ≠ v := by rintro rfl; have := hu.unique hv; omega
  have hvs : v ≠ s := by rintro rfl; have := hv.unique (IsDist.zero g v); omega
  have hnR : ¬ R g s L P u v := by
    rintro ⟨d, h1, -, -, h4 | ⟨-, h5⟩⟩
    · have := h1.unique hu; omega
    · exact hnew h5
  have hvR : ∀ y, ¬ R g s L P v y := by
    rintro y ⟨d, h1, -, -, h4⟩
    have := h1.unique hv
    omega
  have hl : ∀ z, z ≠ v → (F' z).l = (F z).l ∧ (F' z).pc = (F z).pc ∧ (F' z).preds = (F z).preds := by
    intro z hz
    by_cases c : z = u
    · subst c; exact ⟨hu1, hu2, hu3⟩
    · rw [ho z c hz]; exact ⟨rfl, rfl, rfl⟩
  have hpsum : ∀ w, w < g.length → ((F w).preds.map fun x => (F' x).pc) = (F w).preds.map fun x => (F x).pc := by
    intro w hw
    apply List.map_congr_left
    intro x hx
    refine (hl x ?_).2.1
    rintro rfl
    exact hvR w ((h.pred w hw x).1 hx)
  refine ⟨?_, ?_, ?_, ?_, ?_, ?_, ?_, ?_, ?_, ?_⟩
  · intro w hw
    by_cases c : w = v
    · subst c
      rw [hv3, List.nodup_cons]
      exact ⟨fun hh => hnR ((h.pred w hw u).1 hh), h.predN w hw⟩
    · rw [(hl w c).2.2]; exact h.predN w hw
  · intro w hw x
    rw [hR]
    by_cases c : w = v
    · subst c
      rw [hv3, List.mem_cons, h.pred w hw]
      constructor
      · rintro (k | k)
        · exact Or.inr ⟨k, rfl⟩
        · exact Or.inl k
      · rintro (k | ⟨k, -⟩)
        · exact Or.inr k
        · exact Or.inl k
    · rw [(hl w c).2.2, h.pred w hw]
      exact ⟨Or.inl, fun k => k.resolve_right fun hh => c hh.2⟩
  · intro w hw
    by_cases c : w = v
    · subst c; rw [hv4]; exact List.nodup_nil
    · by_cases d : w = u
      · subst d
        rw [hu4, List.nodup_cons]
        exact ⟨fun hh => hnR ((h.succ w hw v).1 hh), h.succN w hw⟩
      · rw [ho w d c]; exact h.succN w hw
  · intro w hw x
    rw [hR]
    by_cases c : w = v
    · subst c
      rw [hv4]
      constructor
      · intro hh; simp at hh
      · rintro (k | ⟨k, -⟩)
        · exact absurd k (hvR x)
        · exact absurd k.symm huv
    · by_cases d : w = u
      · subst d
        rw [hu4, List.mem_cons, h.succ w hw]
        constructor
        · rintro (k | k)
          · exact Or.inr ⟨rfl, k⟩
          · exact Or.inl k
        · rintro (k | ⟨-, k⟩)
          · exact Or.inr k
          · exact Or.inl k
      · rw [ho w d c, h.succ w hw]
        exact ⟨Or.inl, fun k => k.resolve_right fun hh => d hh.1⟩
  · obtain ⟨a, b, -⟩ := hl s (Ne.symm hvs)
    rw [a, b]; exact h.root
  · intro w hw x d hx hd
    by_cases c : w = v
    · subst c
      rw [hv1]; exact hv.unique hd
    · rw [(hl w c).1]
      rcases (hR x w).1 hx with k | ⟨-, k⟩
      · exact h.lvl w hw x d k hd
      · exact absurd k c
  · intro w hw hws hno
    by_cases c : w = v
    · subst c
      exact absurd ((hR u w).2 (Or.inr ⟨rfl, rfl⟩)) (hno u)
    · rw [(hl w c).1]
      exact h.none w hw hws fun x hx => hno x ((hR x w).2 (Or.inl hx))
  · intro w hw hws
    by_cases c : w = v
    · subst c
      rw [hv2, hv3, List.map_cons, List.sum_cons, hpsum w hw, hu2, h.pc w hw hws, Nat.add_comm, Nat.add_mod_mod]
    · obtain ⟨-, b, d⟩ := hl w c
      rw [b, d, hpsum w hw]; exact h.pc w hw hws
  · intro w hw x hx
    rcases (hR w x).1 hx with k | ⟨rfl, rfl⟩
    · have c : w ≠ v := by rintro rfl; exact hvR x k
      obtain ⟨a, b, -⟩ := hl w c
      rw [a, b]
      by_cases d : w = u
      · subst d
        rw [hu5]
        show (if x = v then _ else _) = _
        split
        · rfl
        · exact h.edge w hw x k
      · rw [ho w d c]; exact h.edge w hw x k
    · rw [hu5, hu1, hu2]
      show (if x = x then _ else _) = _
      rw [if_pos rfl]
  · intro w hw x hx
    have hn : ¬ R g s L P w x := fun hh => hx ((hR w x).2 (Or.inl hh))
    by_cases c : w = v
    · subst c; rw [hv5]; exact h.noedge w hw x hn
    · by_cases d : w = u
      · subst d
        have : x ≠ v := by rintro rfl; exact hx ((hR w x).2 (Or.inr ⟨rfl, rfl⟩))
        rw [hu5]
        show ((if x = v then _ else _) : Nat × Nat).1 = 0 ∨ (w = x ∧ ((if x = v then _ else _) : Nat × Nat).1 = inf)
        rw [if_neg this]; exact h.noedge w hw x hn
      · rw [ho w d c]; exact h.noedge w hw x hn

/-- The item is in the bucket. -/
def Has (bs : Buckets) (k : Nat) (e : Nat × Nat) : Prop := ∃ b, bs[k]? = some b ∧ e ∈ b

theorem push_ok (bs : Buckets) (p : Nat) (x : Nat × Nat) :
    ∃ bs', push bs p x = .ok bs' ∧ bs.length ≤ bs'.length ∧ ∀ k e, Has bs' k e ↔ Has bs k e ∨ (k = p ∧ e = x) := by
  unfold push
  generalize hc : bs ++ List.replicate (p + 1 - bs.length) [] = c
  have hlen : c.length = bs.length + (p + 1 - bs.length) := by rw [← hc]; simp
  have hp : p < c.length := by omega
  have hHas : ∀ k e, Has c k e ↔ Has bs k e := by
    intro k e
    unfold Has
    rw [← hc, List.getElem?_append]
    by_cases d : k < bs.length
    · rw [if_pos d]
    · rw [if_neg d, List.getElem?_eq_none (by omega : bs.length ≤ k)]
      constructor
      · rintro ⟨b, hb, he⟩
        rw [List.getElem?_replicate] at hb
        split at hb
        · cases hb; simp at he
        · cases hb
      · rintro ⟨b, hb, -⟩; cases hb
  simp only [vget_of_lt hp, res_bind_ok, vset_of_lt hp]
  refine ⟨_, rfl, by rw [List.length_set]; omega, fun k e => ?_⟩
  rw [← hHas]
  unfold Has
  rw [List.getElem?_set]
  by_cases d : p = k
  · subst d
    rw [if_pos rfl, if_pos hp]
    have : c[p]? = some (c[p]'hp) := by simp [hp]
    constructor
    · rintro ⟨b, hb, he⟩
      cases hb
      rw [List.mem_append, List.mem_singleton] at he
      rcases he with he | he
      · exact Or.inl ⟨_, this, he⟩
      · exact Or.inr ⟨rfl, he⟩
    · rintro (⟨b, hb, he⟩ | ⟨-, rfl⟩)
      · rw [this] at hb; cases hb
        exact ⟨_, rfl, List.mem_append_left _ he⟩
      · exact ⟨_, rfl, by simp⟩
  · rw [if_neg d]
    exact ⟨Or.inl, fun k => k.resolve_right fun hh => d hh.1.symm⟩

theorem pushAll_ok (hdl : 0 < dl) (hvs : Vec g.length F vs) {v : Nat} (hv : v < g.length) (es : List (Nat × Nat)) (bs : Buckets) :
    ∃ bs', pushAll dl vs v bs es = .ok bs' ∧ bs.length ≤ bs'.length ∧ ∀ k e, Has bs' k e ↔ Has bs k e ∨ (k = ((F v).l + 1) / dl ∧ e ∈ es) := by
  unfold pushAll
  rw [hvs.vget hv, res_bind_ok]
  have hp : priority dl (F v).l = .ok (((F v).l + 1) / dl) := by
    unfold priority; rw [if_neg (by omega)]
  induction es generalizing bs with
  | nil => exact ⟨bs, rfl, Nat.le_refl _, fun k e => by simp⟩
  | cons a es ih =>
    obtain ⟨b1, h1, h2, h3⟩ := push_ok bs (((F v).l + 1) / dl) a
    obtain ⟨b2, k1, k2, k3⟩ := ih b1
    refine ⟨b2, ?_, by omega, fun k e => ?_⟩
    · have e : (do let p ← priority dl (F v).l; push bs p a : Res Buckets) = .ok b1 := by rw [hp, res_bind_ok, h1]
      rw [List.foldlM_cons, e, res_bind_ok]
      exact k1
    · rw [k3, h3]
      simp only [List.mem_cons]
      constructor
      · rintro ((k | ⟨a1, a2⟩) | ⟨a1, a2⟩)
        · exact Or.inl k
        · exact Or.inr ⟨a1, Or.inl a2⟩
        · exact Or.inr ⟨a1, Or.inr a2⟩
      · rintro (k | ⟨a1, a2 | a2⟩)
        · exact Or.inl (Or.inl k)
        · exact Or.inl (Or.inr ⟨a1, a2⟩)
        · exact Or.inr ⟨a1, a2⟩

/-- The buckets hold the edges from the vertices of the next level found so far. -/
def RB (dl : Nat) (g : Rows α) (s L : Nat) (P : List (Nat × Nat)) (bs : Buckets) : Prop :=
  ∀ k e, Has bs k e ↔ k = (L + 2) / dl ∧ IsDist g s e.1 (L + 1) ∧ Edge g e.1 e.2 ∧ ∃ u, (u, e.1) ∈ P

theorem mem_row {row : List (Nat × α)} {v : Nat} (h : g[v]? = some row) (e : Nat × Nat) : e ∈ row.map (fun a => (v, a.1)) ↔ e.1 = v ∧ Edge g e.1 e.2 := by
  unfold Edge nbrs
  constructor
  · intro hh
    obtain ⟨a, ha, rfl⟩ := List.mem_map.1 hh
    refine ⟨rfl, ?_⟩
    rw [List.getD_eq_getElem?_getD]
    show a.1 ∈ List.map Prod.fst (g[v]?.getD [])
    rw [h]
    exact List.mem_map.2 ⟨a, ha, rfl⟩
  · rintro ⟨h1, h2⟩
    obtain ⟨x, y⟩ := e
    obtain rfl : x = v := h1
    rw [List.getD_eq_getElem?_getD] at h2
    change y ∈ List.map Prod.fst (g[x]?.getD []) at h2
    rw [h] at h2
    obtain ⟨a, ha, rfl⟩ := List.mem_map.1 h2
    exact List.mem_map.2 ⟨a, ha, rfl⟩

theorem treat_step (hM : 0 < M) (hdl : 0 < dl) (hg : InRange g) (hs : s < g.length) (hinf : g.length < inf) (h : LI M inf g s L P F) (hvs : Vec g.length F vs)
    (hP : ∀ e ∈ P, IsDist g s e.1 L ∧ Edge g e.1 e.2) (hb : RB dl g s L P bs) {u v : Nat} (hu : IsDist g s u L) (he : Edge g u v) :
    ∃ vs' F' bs', treat M inf dl g (vs, bs) (u, v) = .ok (vs', bs') ∧ Vec g.length F' vs' ∧ LI M inf g s L ((u, v) :: P) F' ∧ bs.length ≤ bs'.length ∧ RB dl g s L ((u, v) :: P) bs' := by
  have hun : u < g.length := hu.1.lt hg hs
  have hvn : v < g.length := hg u v he
  have hLn : L < g.length := hu.lt_length hg hs
  have hlu : (F u).l = L := h.near hg hs hu (Nat.le_refl _)
  obtain ⟨d, hd⟩ := Reachable.exists_dist (⟨_, hu.1.snoc he⟩ : Reachable g s v)
  have hdL : d ≤ L + 1 := hd.2 _ (hu.1.snoc he)
  unfold treat
  rw [hvs.vget hvn, res_bind_ok, hvs.vget hun, res_bind_ok]
  by_cases c : d = L + 1
  · subst c
    have huv : u ≠ v := by rintro rfl; have := hu.unique hd; omega
    have hvs' : v ≠ s := by rintro rfl; have := hd.unique (IsDist.zero g v); omega
    have hvR : ∀ y, ¬ R g s L P v y := by
      rintro y ⟨d, h1, -, -, h4⟩
      have := h1.unique hd
      omega
    have hsucc : (F v).succs = [] := by
      rw [List.eq_nil_iff_forall_not_mem]
      exact fun y hy => hvR y ((h.succ v hvn y).1 hy)
    by_cases r : ∃ u', R g s L P u' v
    · obtain ⟨u', hu'⟩ := r
      have hlv : (F v).l = L + 1 := h.lvl v hvn u' _ hu' hd
      have hu'P : (u', v) ∈ P := by
        obtain ⟨d, h1, h2, -, h4 | ⟨h4, h5⟩⟩ := hu'
        · have := h2.unique hd; omega
        · exact h5
      have g1 : guardCn inf v (F u) (F v) = false := by
        unfold guardCn
        rw [hlu, hlv]; simp
      have g2 : guardSp (F u) (F v) = false := by
        unfold guardSp
        rw [hlu, hlv]; simp
      simp only [g1, g2, Bool.false_eq_true, if_false]
      have hRB : RB dl g s L ((u, v) :: P) bs := by
        intro k e
        rw [hb]
        constructor
        · rintro ⟨a1, a2, a3, x, a4⟩
          exact ⟨a1, a2, a3, x, List.mem_cons_of_mem _ a4⟩
        · rintro ⟨a1, a2, a3, x, a4⟩
          refine ⟨a1, a2, a3, ?_⟩
          rcases List.mem_cons.1 a4 with a4 | a4
          · obtain ⟨e1, e2⟩ := e
            simp only [Prod.mk.injEq] at a4
            obtain ⟨-, rfl⟩ := a4
            exact ⟨u', hu'P⟩
          · exact ⟨x, a4⟩
      by_cases m : (u, v) ∈ P
      · have hRuv : R g s L P u v := ⟨L, hu, hd, he, Or.inr ⟨rfl, m⟩⟩
        have hedge := h.edge u hun v hRuv
        have g3 : guardFu v (F u) (F v) = false := by
          unfold guardFu
          rw [hedge]; simp
        have g4 : guardUs v (F u) (F v) = false := by
          unfold guardUs
          rw [hedge]; simp
        simp only [g3, g4, Bool.false_eq_true, if_false]
        refine ⟨vs, F, bs, rfl, hvs, h.congr fun x y => ?_, Nat.le_refl _, hRB⟩
        rw [R_cons hu hd he]
        exact ⟨fun k => k.elim id fun ⟨a, b⟩ => by subst a; subst b; exact hRuv, Or.inl⟩
      · have hnR : ¬ R g s L P u v := by
          rintro ⟨d, h1, -, -, h4 | ⟨-, h5⟩⟩
          · have := h1.unique hu; omega
          · exact m h5
        have hL : L ≠ 0 := by
          rintro rfl
          have := hu.of_zero; subst this
          have := (hP _ hu'P).1.of_zero
          simp only at this
          subst this
          exact m hu'P
        have g3 : guardFu v (F u) (F v) = true := by
          unfold guardFu
          rw [hlu, hlv]
          rcases h.noedge u hun v hnR with k | ⟨k, -⟩
          · rw [k]; simp; omega
          · exact absurd k huv
        simp only [g3, if_true]
        obtain ⟨v1, e1, w1⟩ := modify_vec hvs hvn fun x => { x with pc := (x.pc + (F u).pc) % M }
        obtain ⟨v2, e2, w2⟩ := modify_vec w1 hun fun x => { x with succs := v :: x.succs, edge := fun w => if w = v then (x.l, x.pc) else x.edge w }
        obtain ⟨v3, e3, w3⟩ := modify_vec w2 hvn fun x => { x with preds := u :: x.preds }
        have ea : applyFu M u v vs = .ok v3 := by
          unfold applyFu
          rw [hvs.vget hun, res_bind_ok, e1, res_bind_ok, e2, res_bind_ok, e3]
        rw [ea, res_bind_ok, w3.vget hvn, res_bind_ok]
        have hvu : v ≠ u := Ne.symm huv
        simp only [if_true, hvu, if_false, hsucc, List.isEmpty_nil]
        refine ⟨v3, _, bs, rfl, w3, ?_, Nat.le_refl _, hRB⟩
        refine h.grow hM hun hvn hu hd he m ?_ ?_ ?_ ?_ ?_ ?_ ?_ ?_ ?_ ?_ ?_
        · simp [hvu, hlv]
        · simp [hvu]
        · simp [hvu]
        · simp [hvu, hsucc]
        · simp [hvu]
        · simp [huv]
        · simp [huv]
        · simp [huv]
        · simp [huv]
        · simp [huv]
        · intro z z1 z2; simp [z1, z2]
    · have hno : ∀ u', ¬ R g s L P u' v := fun u' hh => r ⟨u', hh⟩
      have hlv : (F v).l = inf := h.none v hvn hvs' hno
      have hpreds : (F v).preds = [] := by
        rw [List.eq_nil_iff_forall_not_mem]
        exact fun y hy => hno y ((h.pred v hvn y).1 hy)
      have hpcv : (F v).pc = 0 := by rw [h.pc v hvn hvs', hpreds]; simp
      have m : (u, v) ∉ P := fun hh => hno u ⟨L, hu, hd, he, Or.inr ⟨rfl, hh⟩⟩
      have mv : ∀ x, (x, v) ∉ P := fun x hh => hno x ⟨L, (hP _ hh).1, hd, (hP _ hh).2, Or.inr ⟨rfl, hh⟩⟩
      have g1 : guardCn inf v (F u) (F v) = false := by
        unfold guardCn
        rw [hlu, hlv, decide_eq_false (by omega)]; simp
      have g2 : guardSp (F u) (F v) = true := by
        unfold guardSp
        rw [hlu, hlv]; simp; omega
      simp only [g1, g2, Bool.false_eq_true, if_false, if_true]
      obtain ⟨v1, e1, w1⟩ := modify_vec hvs hvn fun x => { x with l := (F u).l + 1, pc := (F u).pc, preds := [], succs := [] }
      obtain ⟨v2, e2, w2⟩ := modify_vec w1 hun fun x => { x with succs := v :: x.succs, edge := fun w => if w = v then (x.l, x.pc) else x.edge w }
      obtain ⟨v3, e3, w3⟩ := modify_vec w2 hvn fun x => { x with preds := u :: x.preds }
      have ea : applySpfu u v vs = .ok v3 := by
        unfold applySpfu
        rw [hvs.vget hun, res_bind_ok, e1, res_bind_ok, e2, res_bind_ok, e3]
      have hvu : v ≠ u := Ne.symm huv
      have hrow : g[v]? = some (g[v]'hvn) := by simp [hvn]
      rw [ea, res_bind_ok, vget_of_lt hvn, res_bind_ok, hpreds, List.map_nil]
      generalize hF' : (fun z => if z = v then _ else _) = F' at w3
      have hlv' : (F' v).l = L + 1 := by rw [← hF']; simp [hvu, hlu]
      obtain ⟨b1, p1, p2, p3⟩ := pushAll_ok hdl w3 hvn ((g[v]'hvn).map fun a => (v, a.1)) bs
      obtain ⟨b2, q1, q2, q3⟩ := pushAll_ok hdl w3 hvn [] b1
      rw [p1, res_bind_ok, q1, res_bind_ok]
      refine ⟨v3, F', b2, rfl, w3, ?_, by omega, ?_⟩
      · subst hF'
        refine h.grow hM hun hvn hu hd he m ?_ ?_ ?_ ?_ ?_ ?_ ?_ ?_ ?_ ?_ ?_
        · simp [hvu, hlu]
        · rw [hpcv, Nat.zero_add, Nat.mod_eq_of_lt (h.pcM hM hun)]; simp [hvu]
        · simp [hvu, hpreds]
        · simp [hvu]
        · simp [hvu]
        · simp [huv]
        · simp [huv]
        · simp [huv]
        · simp [huv]
        · simp [huv]
        · intro z z1 z2; simp [z1, z2]
      · intro k e
        rw [q3, p3, hb, hlv', mem_row hrow]
        constructor
        · rintro ((⟨a1, a2, a3, x, a4⟩ | ⟨a1, a2, a3⟩) | ⟨-, a⟩)
          · exact ⟨a1, a2, a3, x, List.mem_cons_of_mem _ a4⟩
          · exact ⟨a1, by rw [a2]; exact hd, a3, u, by rw [a2]; exact List.mem_cons_self⟩
          · simp at a
        · rintro ⟨a1, a2, a3, x, a4⟩
          left
          rcases List.mem_cons.1 a4 with a4 | a4
          · right
            simp only [Prod.mk.injEq] at a4
            exact ⟨a1, a4.2, a3⟩
          · exact Or.inl ⟨a1, a2, a3, x, a4⟩
  · have hdle : d ≤ L := by omega
    have hlv : (F v).l = d := h.near hg hs hd hdle
    have hRB : RB dl g s L ((u, v) :: P) bs := by
      intro k e
      rw [hb]
      constructor
      · rintro ⟨a1, a2, a3, x, a4⟩
        exact ⟨a1, a2, a3, x, List.mem_cons_of_mem _ a4⟩
      · rintro ⟨a1, a2, a3, x, a4⟩
        refine ⟨a1, a2, a3, ?_⟩
        rcases List.mem_cons.1 a4 with a4 | a4
        · simp only [Prod.mk.injEq] at a4
          rw [a4.2] at a2
          exact absurd (a2.unique hd) (by omega)
        · exact ⟨x, a4⟩
    have g2 : guardSp (F u) (F v) = false := by
      unfold guardSp
      rw [hlu, hlv]; simp; omega
    have g3 : guardFu v (F u) (F v) = false := by
      unfold guardFu
      rw [hlu, hlv, decide_eq_false (by omega)]; simp
    have g4 : guardUs v (F u) (F v) = false := by
      unfold guardUs
      rw [hlu, hlv, decide_eq_false (by omega : ¬ d = L + 1)]; simp
    have hnR : ¬ R g s L P u v := by
      rintro ⟨d', h1, h2, -⟩
      have := h1.unique hu
      have := h2.unique hd
      omega
    by_cases g1 : guardCn inf v (F u) (F v) = true
    · have hL0 : L = 0 := by
        unfold guardCn at g1
        rw [hlu] at g1
        simp only [Bool.and_eq_true, decide_eq_true_eq] at g1
        rcases h.noedge u hun v hnR with k | ⟨-, k⟩ <;> omega
      subst hL0
      have hd0 : d = 0 := by omega
      subst hd0
      have := hu.of_zero; subst this
      have := hd.of_zero; subst this
      simp only [g1, if_true]
      have hsv : v ∉ (F v).succs := fun hh => hnR ((h.succ v hun v).1 hh)
      obtain ⟨v1, e1, w1⟩ := modify_vec hvs hun fun x => { x with succs := x.succs.filter (· ≠ v), edge := fun w => if w = v then (inf, (x.edge v).2) else x.edge w }
      have ea : applyCn inf v v vs = .ok v1 := e1
      rw [ea, res_bind_ok]
      refine ⟨v1, _, bs, rfl, w1, ?_, Nat.le_refl _, hRB⟩
      have hfil : (F v).succs.filter (· ≠ v) = (F v).succs := by
        rw [List.filter_eq_self]
        intro x hx
        simp only [ne_eq, decide_not, Bool.not_eq_eq_eq_not, Bool.not_true, decide_eq_false_iff_not]
        rintro rfl
        exact hsv hx
      have h' : LI M inf g v 0 P (fun z => if z = v then { F v with succs := (F v).succs.filter (· ≠ v), edge := fun w => if w = v then (inf, ((F v).edge v).2) else (F v).edge w } else F z) := by
        have hsim : ∀ z, ((if z = v then { F v with succs := (F v).succs.filter (· ≠ v), edge := fun w => if w = v then (inf, ((F v).edge v).2) else (F v).edge w } else F z) : Node).l = (F z).l ∧
            ((if z = v then { F v with succs := (F v).succs.filter (· ≠ v), edge := fun w => if w = v then (inf, ((F v).edge v).2) else (F v).edge w } else F z) : Node).pc = (F z).pc ∧
            ((if z = v then { F v with succs := (F v).succs.filter (· ≠ v), edge := fun w => if w = v then (inf, ((F v).edge v).2) else (F v).edge w } else F z) : Node).preds = (F z).preds ∧
            ((if z = v then { F v with succs := (F v).succs.filter (· ≠ v), edge := fun w => if w = v then (inf, ((F v).edge v).2) else (F v).edge w } else F z) : Node).succs = (F z).succs ∧
            ∀ w, (z = v → w ≠ v) → ((if z = v then { F v with succs := (F v).succs.filter (· ≠ v), edge := fun w => if w = v then (inf, ((F v).edge v).2) else (F v).edge w } else F z) : Node).edge w = (F z).edge w := by
          intro z
          by_cases c : z = v
          · subst c
            simp only [if_true, true_and]
            exact ⟨hfil, fun w hw => if_neg (hw trivial)⟩
          · simp [c]
        obtain ⟨a1, a2, a3, a4, a5, a6, a7, a8, a9, a10⟩ := h
        refine ⟨?_, ?_, ?_, ?_, ?_, ?_, ?_, ?_, ?_, ?_⟩
        · intro w hw; rw [(hsim w).2.2.1]; exact a1 w hw
        · intro w hw; rw [(hsim w).2.2.1]; exact a2 w hw
        · intro w hw; rw [(hsim w).2.2.2.1]; exact a3 w hw
        · intro w hw; rw [(hsim w).2.2.2.1]; exact a4 w hw
        · rw [(hsim v).1, (hsim v).2.1]; exact a5
        · intro w hw; rw [(hsim w).1]; exact a6 w hw
        · intro w hw; rw [(hsim w).1]; exact a7 w hw
        · intro w hw hws
          rw [(hsim w).2.1, (hsim w).2.2.1, a8 w hw hws]
          congr 2
          apply List.map_congr_left
          intro x _
          exact (hsim x).2.1.symm
        · intro x hx w hw
          rw [(hsim x).1, (hsim x).2.1, (hsim x).2.2.2.2 w ?_]
          · exact a9 x hx w hw
          · rintro rfl rfl
            exact hnR hw
        · intro x hx w hw
          by_cases c : x = v ∧ w = v
          · obtain ⟨rfl, rfl⟩ := c
            simp
          · rw [(hsim x).2.2.2.2 w fun a b => c ⟨a, b⟩]
            exact a10 x hx w hw
      exact h'.same hd (Nat.le_refl _)
    · have g1' : guardCn inf v (F u) (F v) = false := by simpa using g1
      simp only [g1', g2, g3, g4, Bool.false_eq_true, if_false]
      exact ⟨vs, F, bs, rfl, hvs, h.same hd hdle, Nat.le_refl _, hRB⟩

end NW.BcNoAbs
