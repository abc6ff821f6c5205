import Verif.Lemmas.BcNoAbs
import Verif.Run

/-! # Lemmas: the rounds of the bucketed search -/

namespace NW.BcNoAbs
open Spec Fifo
open NW.Brandes (Vec)
open NW.BcWork (Node modify modify_vec simple_inRange simple_length edge_simple nbrs_simple eraseDups_nodup)
open NW.BcAsync (walk_simple isDist_simple)

variable {α : Type} {M inf dl : Nat} {g : Rows α} {s L : Nat} {P : List (Nat × Nat)} {F : Nat → Node} {vs : List Node} {bs : Buckets}

/-- The items of a round, in any order. -/
theorem items (hM : 0 < M) (hdl : 0 < dl) (hg : InRange g) (hs : s < g.length) (hinf : g.length < inf) (cur : List (Nat × Nat)) (hcur : ∀ e ∈ cur, IsDist g s e.1 L ∧ Edge g e.1 e.2)
    (h : LI M inf g s L P F) (hvs : Vec g.length F vs) (hP : ∀ e ∈ P, IsDist g s e.1 L ∧ Edge g e.1 e.2) (hb : RB dl g s L P bs) :
    ∃ vs' F' bs', cur.foldlM (treat M inf dl g) (vs, bs) = .ok (vs', bs') ∧ Vec g.length F' vs' ∧ LI M inf g s L (cur.reverse ++ P) F' ∧ bs.length ≤ bs'.length ∧ RB dl g s L (cur.reverse ++ P) bs' := by
  induction cur generalizing P F vs bs with
  | nil => exact ⟨vs, F, bs, rfl, hvs, h, Nat.le_refl _, hb⟩
  | cons e cur ih =>
    obtain ⟨h1, h2⟩ := hcur e (by simp)
    obtain ⟨v1, F1, b1, e1, e2, e3, e4, e5⟩ := treat_step hM hdl hg hs hinf h hvs hP hb h1 h2
    obtain ⟨v2, F2, b2, k1, k2, k3, k4, k5⟩ := ih (fun x hx => hcur x (by simp [hx])) e3 e2
      (fun x hx => by
        rcases List.mem_cons.1 hx with rfl | hx
        · exact ⟨h1, h2⟩
        · exact hP x hx) e5
    have hrev : (e :: cur).reverse ++ P = cur.reverse ++ ((e.1, e.2) :: P) := by simp
    refine ⟨v2, F2, b2, ?_, k2, ?_, by omega, ?_⟩
    · rw [List.foldlM_cons, show treat M inf dl g (vs, bs) e = .ok (v1, b1) from e1, res_bind_ok]
      exact k1
    · rw [hrev]; exact k3
    · rw [hrev]; exact k5

/-- Before a round: the items of bucket `top` are the edges from level `L`, the others are empty. -/
structure At (M inf dl : Nat) (g : Rows α) (s L : Nat) (st : St) : Prop where
  nodes : ∃ F, Vec g.length F st.vs ∧ LI M inf g s L [] F
  top : st.top < st.bs.length
  has : ∀ k e, Has st.bs k e ↔ k = st.top ∧ IsDist g s e.1 L ∧ Edge g e.1 e.2
  le : st.top ≤ (L + 2) / dl

theorem skip_found {lenient : Bool} (bs : Buckets) (j t : Nat) {b : List (Nat × Nat)} (hj : bs[j]? = some b) (hb : b ≠ []) (h : ∀ k < j, ∀ c, bs[k]? = some c → c = []) :
    skip lenient bs t = .ok (t + j) := by
  induction bs generalizing j t with
  | nil => simp at hj
  | cons c cs ih =>
    unfold skip
    cases j with
    | zero =>
      simp at hj; subst hj
      rw [if_neg (by simpa using hb)]; rfl
    | succ j =>
      have := h 0 (by omega) c rfl
      subst this
      rw [if_pos List.isEmpty_nil, ih j (t + 1) (by simpa using hj) fun k hk c hc => h (k + 1) (by omega) c (by simpa using hc)]
      congr 1; omega

theorem skip_end {lenient : Bool} (bs : Buckets) (t : Nat) (h : ∀ c ∈ bs, c = []) : skip lenient bs t = if lenient then .ok (t + bs.length) else .error .outOfBounds := by
  induction bs generalizing t with
  | nil => rfl
  | cons c cs ih =>
    have := h c (by simp)
    subst this
    unfold skip
    rw [if_pos List.isEmpty_nil, ih (t + 1) fun c hc => h c (by simp [hc])]
    split
    · congr 1; simp; omega
    · rfl

/-- The search is complete when there are no edges from the next level. -/
theorem LI.searched (h : LI M inf g s L [] F) (hM : 0 < M) (hg : InRange g) (hs : s < g.length) (hvs : Vec g.length F vs) (hno : ∀ u w, IsDist g s u L → ¬ Edge g u w) : Spec.Searched M inf g s vs := by
  have hget : ∀ v x, vs[v]? = some x → v < g.length ∧ x = F v := by
    intro v x hx
    have hv : v < g.length := by rw [← hvs.1]; exact (List.getElem?_eq_some_iff.1 hx).1
    have := hvs.2 v hv
    rw [hx] at this
    exact ⟨hv, Option.some.inj this⟩
  have hfar : ∀ w d, IsDist g s w d → d ≤ L := by
    intro w d hd
    by_contra hlt
    obtain ⟨w', hw'⟩ := hd.down (show L + 1 ≤ d by omega)
    obtain ⟨u, hu, he⟩ := hw'.pred
    exact hno u w' hu he
  have hR : ∀ u w, R g s L [] u w ↔ ∃ d, IsDist g s u d ∧ IsDist g s w (d + 1) ∧ Edge g u w := by
    intro u w
    constructor
    · rintro ⟨d, a, b, c, -⟩; exact ⟨d, a, b, c⟩
    · rintro ⟨d, a, b, c⟩
      have := hfar w _ b
      exact ⟨d, a, b, c, Or.inl (by omega)⟩
  have hl : ∀ v d, IsDist g s v d → (F v).l = d := fun v d hd => h.near hg hs hd (hfar v d hd)
  have hcount : ∀ d v, IsDist g s v d → (F v).pc % M = nw (simple g) d s v % M := by
    intro d
    induction d with
    | zero =>
      intro v hd
      have := hd.of_zero; subst this
      rw [h.root.2, nw_zero]; simp
    | succ d ih =>
      intro v hd
      have hv : v < g.length := hd.1.lt hg hs
      have hvs : v ≠ s := by rintro rfl; have := hd.unique (IsDist.zero g v); omega
      rw [h.pc v hv hvs, Nat.mod_mod, sum_list_count _ _ g.length fun x hx => by
        obtain ⟨d, a, -⟩ := (h.pred v hv x).1 hx
        exact a.1.lt hg hs, nw_last (simple_inRange hg), simple_length, Finset.sum_nat_mod, Finset.sum_nat_mod (Finset.range g.length) M fun x => nw (simple g) d s x * mult (simple g) x v]
      congr 1
      refine Finset.sum_congr rfl fun x hx => ?_
      rw [Finset.mem_range] at hx
      by_cases e : Edge g x v
      · have hm : mult (simple g) x v = 1 := by
          have h1 := mult_pos.2 (edge_simple.2 e)
          have h2 : mult (simple g) x v ≤ 1 := by
            unfold mult; rw [nbrs_simple]
            exact List.nodup_iff_count_le_one.1 (eraseDups_nodup _) v
          omega
        by_cases c : IsDist g s x d
        · have hmem : x ∈ (F v).preds := (h.pred v hv x).2 ((hR x v).2 ⟨d, c, hd, e⟩)
          rw [List.count_eq_one_of_mem (h.predN v hv) hmem, hm, Nat.one_mul, Nat.mul_one]
          exact ih x c
        · have hmem : x ∉ (F v).preds := fun hh => by
            obtain ⟨d', a, b, -⟩ := (h.pred v hv x).1 hh
            have := b.unique hd
            obtain rfl : d' = d := by omega
            exact c a
          rw [List.count_eq_zero_of_not_mem hmem]
          have : nw (simple g) d s x = 0 := by
            rcases Nat.eq_zero_or_pos (nw (simple g) d s x) with k | k
            · exact k
            · exfalso
              have hw := walk_simple.1 ((nw_pos (simple_inRange hg)).1 k)
              refine c ⟨hw, fun j hj => ?_⟩
              have := hd.2 _ (hj.snoc e)
              omega
          rw [this]; simp
      · have hm : mult (simple g) x v = 0 := by
          rcases Nat.eq_zero_or_pos (mult (simple g) x v) with k | k
          · exact k
          · exact absurd (edge_simple.1 (mult_pos.1 k)) e
        have hmem : x ∉ (F v).preds := fun hh => by
          obtain ⟨d', -, -, b, -⟩ := (h.pred v hv x).1 hh
          exact e b
        rw [List.count_eq_zero_of_not_mem hmem, hm]; simp
  refine ⟨hvs.1, ?_, ?_, ?_, ?_⟩
  · intro v x d hx hd
    obtain ⟨hv, rfl⟩ := hget v x hx
    refine ⟨hl v d hd, ?_⟩
    rw [← Brandes.nw_eq_length (simple_inRange hg) (by rw [simple_length]; exact hs) (isDist_simple.2 hd), ← hcount d v hd, Nat.mod_eq_of_lt (h.pcM hM hv)]
  · intro v x hx hr
    obtain ⟨hv, rfl⟩ := hget v x hx
    have hvs : v ≠ s := by rintro rfl; exact hr ⟨0, .nil⟩
    have hno' : ∀ u, ¬ R g s L [] u v := by
      rintro u ⟨d, -, b, -⟩
      exact hr ⟨_, b.1⟩
    refine ⟨h.none v hv hvs hno', ?_⟩
    have : (F v).preds = [] := by
      rw [List.eq_nil_iff_forall_not_mem]
      exact fun y hy => hno' y ((h.pred v hv y).1 hy)
    rw [h.pc v hv hvs, this]; simp
  · intro v x hx
    obtain ⟨hv, rfl⟩ := hget v x hx
    exact ⟨h.predN v hv, fun u => by rw [h.pred v hv, hR]⟩
  · intro v x hx
    obtain ⟨hv, rfl⟩ := hget v x hx
    exact ⟨h.succN v hv, fun w => by rw [h.succ v hv, hR]⟩

/-- One round. -/
theorem round_ok {lenient : Bool} (hM : 0 < M) (hdl : 0 < dl) (hg : InRange g) (hs : s < g.length) (hinf : g.length < inf) {st : St} (h : At M inf dl g s L st) {b cur : List (Nat × Nat)}
    (hb : st.bs[st.top]? = some b) (hcur : ∀ e, e ∈ cur ↔ e ∈ b) :
    (∃ st', round lenient M inf dl g st cur = .ok st' ∧ At M inf dl g s (L + 1) st' ∧ L + 1 < g.length) ∨
      ∃ vs' bs', Spec.Searched M inf g s vs' ∧ round lenient M inf dl g st cur = if lenient then .ok { top := bs'.length, bs := bs', vs := vs' } else .error .outOfBounds := by
  obtain ⟨F, hvs, hF⟩ := h.nodes
  have hbm : ∀ e, e ∈ b ↔ IsDist g s e.1 L ∧ Edge g e.1 e.2 := by
    intro e
    constructor
    · intro he
      exact ((h.has st.top e).1 ⟨b, hb, he⟩).2
    · intro he
      obtain ⟨b', h1, h2⟩ := (h.has st.top e).2 ⟨rfl, he⟩
      rw [hb] at h1; cases h1
      exact h2
  have hempty : RB dl g s L [] (st.bs.set st.top []) := by
    intro k e
    constructor
    · rintro ⟨b', h1, h2⟩
      exfalso
      rcases getElem?_set_cases h1 with ⟨-, rfl⟩ | ⟨c, h1⟩
      · simp at h2
      · exact c ((h.has k e).1 ⟨b', h1, h2⟩).1.symm
    · rintro ⟨-, -, -, u, hu⟩; simp at hu
  obtain ⟨vs', F', bs', e1, e2, e3, e4, e5⟩ := items hM hdl hg hs hinf cur (fun e he => (hbm e).1 ((hcur e).1 he)) hF hvs (by simp) hempty
  rw [List.append_nil] at e3 e5
  have hlen : st.top < bs'.length := by
    rw [List.length_set] at e4
    exact Nat.lt_of_lt_of_le h.top e4
  have hLI : LI M inf g s (L + 1) [] F' := by
    refine e3.congr fun x y => ?_
    constructor
    · rintro ⟨d, a1, a2, a3, a4 | ⟨-, a5⟩⟩
      · by_cases c : d = L
        · subst c
          refine ⟨d, a1, a2, a3, Or.inr ⟨rfl, ?_⟩⟩
          rw [List.mem_reverse, hcur, hbm]
          exact ⟨a1, a3⟩
        · exact ⟨d, a1, a2, a3, Or.inl (by omega)⟩
      · simp at a5
    · rintro ⟨d, a1, a2, a3, a4⟩
      exact ⟨d, a1, a2, a3, Or.inl (by omega)⟩
  have hHas : ∀ k e, Has bs' k e ↔ k = (L + 2) / dl ∧ IsDist g s e.1 (L + 1) ∧ Edge g e.1 e.2 := by
    intro k e
    rw [e5]
    constructor
    · rintro ⟨a1, a2, a3, -⟩; exact ⟨a1, a2, a3⟩
    · rintro ⟨a1, a2, a3⟩
      refine ⟨a1, a2, a3, ?_⟩
      obtain ⟨u, hu, he⟩ := a2.pred
      exact ⟨u, by rw [List.mem_reverse, hcur, hbm]; exact ⟨hu, he⟩⟩
  have hround : round lenient M inf dl g st cur = (skip lenient (bs'.drop st.top) st.top).map fun t => { top := t, bs := bs', vs := vs' } := by
    unfold round
    rw [vset_of_lt h.top, res_bind_ok, e1, res_bind_ok]
    cases skip lenient (bs'.drop st.top) st.top <;> rfl
  rw [hround]
  by_cases c : ∃ u w, IsDist g s u (L + 1) ∧ Edge g u w
  · left
    obtain ⟨u, w, hu, he⟩ := c
    obtain ⟨b', h1, h2⟩ := (hHas ((L + 2) / dl) (u, w)).2 ⟨rfl, hu, he⟩
    have hle := h.le
    rw [skip_found (bs'.drop st.top) ((L + 2) / dl - st.top) st.top (b := b') ?_ ?_ ?_]
    · refine ⟨_, rfl, ⟨⟨F', e2, hLI⟩, ?_, ?_, ?_⟩, hu.lt_length hg hs⟩
      · show st.top + ((L + 2) / dl - st.top) < bs'.length
        have := (List.getElem?_eq_some_iff.1 h1).1
        omega
      · intro k e
        show Has bs' k e ↔ k = st.top + ((L + 2) / dl - st.top) ∧ _
        rw [hHas, show st.top + ((L + 2) / dl - st.top) = (L + 2) / dl by omega]
      · show st.top + ((L + 2) / dl - st.top) ≤ (L + 1 + 2) / dl
        have : (L + 2) / dl ≤ (L + 1 + 2) / dl := Nat.div_le_div_right (by omega)
        omega
    · rw [List.getElem?_drop, show st.top + ((L + 2) / dl - st.top) = (L + 2) / dl by omega]; exact h1
    · rintro rfl; simp at h2
    · intro k hk c hc
      rw [List.getElem?_drop] at hc
      rw [List.eq_nil_iff_forall_not_mem]
      intro x hx
      have := ((hHas _ x).1 ⟨c, hc, hx⟩).1
      omega
  · right
    refine ⟨vs', bs', hLI.searched hM hg hs e2 fun u w hu he => c ⟨u, w, hu, he⟩, ?_⟩
    rw [skip_end]
    · split
      · rw [List.length_drop, show st.top + (bs'.length - st.top) = bs'.length by omega]; rfl
      · rfl
    · intro d hd
      rw [List.eq_nil_iff_forall_not_mem]
      intro x hx
      obtain ⟨k, hk⟩ := List.getElem?_of_mem (List.mem_of_mem_drop hd)
      obtain ⟨-, a, b⟩ := (hHas k x).1 ⟨d, hk, hx⟩
      exact c ⟨_, _, a, b⟩

/-- What the loop over the buckets does from level `L` on: with a harmless read past the end it finds everything. -/
theorem search_sure (hM : 0 < M) (hdl : 0 < dl) (hg : InRange g) (hs : s < g.length) (hinf : g.length < inf) (threads thresh : Nat) (hloop : threads = 1 ∨ ∀ u, ¬ Edge g u u) {st : St} (h : At M inf dl g s L st) :
    Sure (Round true M inf dl g threads thresh) (fun r => Spec.Searched M inf g s r.vs) st := by
  generalize hk : g.length - L = k
  induction k using Nat.strongRecOn generalizing L st with
  | ind k ih =>
    subst hk
    obtain ⟨b, hb⟩ : ∃ b, st.bs[st.top]? = some b := ⟨st.bs[st.top]'h.top, by simp [h.top]⟩
    have key : ∀ cur : List (Nat × Nat), (∀ e, e ∈ cur ↔ e ∈ b) → ∃ st', round true M inf dl g st cur = .ok st' ∧
        Sure (Round true M inf dl g threads thresh) (fun r => Spec.Searched M inf g s r.vs) st' := by
      intro cur hcur
      rcases round_ok (lenient := true) hM hdl hg hs hinf h hb hcur with ⟨st', h1, h2, h3⟩ | ⟨vs', bs', h1, h2⟩
      · exact ⟨st', h1, ih _ (by omega) h2 rfl⟩
      · rw [if_pos rfl] at h2
        refine ⟨_, h2, ?_⟩
        have hstep : ∀ o, Round true M inf dl g threads thresh { top := bs'.length, bs := bs', vs := vs' } o ↔ o = .ok (.inr { top := bs'.length, bs := bs', vs := vs' }) := by
          intro o
          unfold Round
          simp
        refine .mk ⟨_, (hstep _).2 rfl⟩ ?_ ?_ ?_
        · intro f hf; rw [hstep] at hf; cases hf
        · intro r hr; rw [hstep] at hr; cases hr; exact h1
        · intro r hr; rw [hstep] at hr; cases hr
    have hall : ∀ o, Round true M inf dl g threads thresh st o → ∃ cur, (∀ e, e ∈ cur ↔ e ∈ b) ∧ o = (round true M inf dl g st cur).map .inl := by
      intro o ho
      unfold Round at ho
      rw [hb] at ho
      simp only at ho
      split at ho
      · obtain ⟨-, cur, hp, rfl⟩ := ho
        exact ⟨cur, fun e => hp.mem_iff, rfl⟩
      · exact ⟨b, fun _ => Iff.rfl, ho⟩
    refine .mk ?_ ?_ ?_ ?_
    · unfold Round
      rw [hb]
      simp only
      split
      · rename_i c
        refine ⟨_, ?_, b, List.Perm.refl _, rfl⟩
        rcases hloop with k | k
        · exact absurd k c.1
        · intro e he hee
          have := ((h.has st.top e).1 ⟨b, hb, he⟩).2.2
          rw [hee] at this
          exact k _ this
      · exact ⟨_, rfl⟩
    · intro f hf
      obtain ⟨cur, hc, e⟩ := hall _ hf
      obtain ⟨st', h1, -⟩ := key cur hc
      rw [h1] at e; cases e
    · intro r hr
      obtain ⟨cur, hc, e⟩ := hall _ hr
      obtain ⟨st', h1, -⟩ := key cur hc
      rw [h1] at e; cases e
    · intro r hr
      obtain ⟨cur, hc, e⟩ := hall _ hr
      obtain ⟨st', h1, h2⟩ := key cur hc
      rw [h1] at e; cases e
      exact h2

/-- With the read checked it ends in a fault. -/
theorem search_faults (hM : 0 < M) (hdl : 0 < dl) (hg : InRange g) (hs : s < g.length) (hinf : g.length < inf) (threads thresh : Nat) (hloop : threads = 1 ∨ ∀ u, ¬ Edge g u u) {st : St} (h : At M inf dl g s L st) :
    Runs (Round false M inf dl g threads thresh) st (.error .outOfBounds) ∧ ∀ o, Runs (Round false M inf dl g threads thresh) st o → o = .error .outOfBounds := by
  generalize hk : g.length - L = k
  induction k using Nat.strongRecOn generalizing L st with
  | ind k ih =>
    subst hk
    obtain ⟨b, hb⟩ : ∃ b, st.bs[st.top]? = some b := ⟨st.bs[st.top]'h.top, by simp [h.top]⟩
    have key : ∀ cur : List (Nat × Nat), (∀ e, e ∈ cur ↔ e ∈ b) → round false M inf dl g st cur = .error .outOfBounds ∨ ∃ st', round false M inf dl g st cur = .ok st' ∧
        Runs (Round false M inf dl g threads thresh) st' (.error .outOfBounds) ∧ ∀ o, Runs (Round false M inf dl g threads thresh) st' o → o = .error .outOfBounds := by
      intro cur hcur
      rcases round_ok (lenient := false) hM hdl hg hs hinf h hb hcur with ⟨st', h1, h2, h3⟩ | ⟨vs', bs', h1, h2⟩
      · exact Or.inr ⟨st', h1, ih _ (by omega) h2 rfl⟩
      · exact Or.inl h2
    have hall : ∀ o, Round false M inf dl g threads thresh st o → ∃ cur, (∀ e, e ∈ cur ↔ e ∈ b) ∧ o = (round false M inf dl g st cur).map .inl := by
      intro o ho
      unfold Round at ho
      rw [hb] at ho
      simp only at ho
      split at ho
      · obtain ⟨-, cur, hp, rfl⟩ := ho
        exact ⟨cur, fun e => hp.mem_iff, rfl⟩
      · exact ⟨b, fun _ => Iff.rfl, ho⟩
    have hgo : Round false M inf dl g threads thresh st ((round false M inf dl g st b).map .inl) := by
      unfold Round
      rw [hb]
      simp only
      split
      · rename_i c
        refine ⟨?_, b, List.Perm.refl _, rfl⟩
        rcases hloop with k | k
        · exact absurd k c.1
        · intro e he hee
          have := ((h.has st.top e).1 ⟨b, hb, he⟩).2.2
          rw [hee] at this
          exact k _ this
      · trivial
    constructor
    · rcases key b fun _ => Iff.rfl with k | ⟨st', k, k1, -⟩
      · rw [k] at hgo; exact .fault hgo
      · rw [k] at hgo; exact .step hgo k1
    · intro o ho
      cases ho with
      | done hh =>
        obtain ⟨cur, hc, e⟩ := hall _ hh
        rcases key cur hc with k | ⟨st', k, -⟩ <;> rw [k] at e <;> cases e
      | fault hh =>
        obtain ⟨cur, hc, e⟩ := hall _ hh
        rcases key cur hc with k | ⟨st', k, -⟩ <;> rw [k] at e <;> cases e
        rfl
      | step hh hr =>
        obtain ⟨cur, hc, e⟩ := hall _ hh
        rcases key cur hc with k | ⟨st', k, -, k2⟩ <;> rw [k] at e <;> cases e
        exact k2 _ hr

/-- The nodes before the first source. -/
def fresh (n : Nat) : List Node := List.replicate n { l := 0, pc := 0, preds := [], succs := [], edge := fun _ => (0, 0) }

theorem first_ok {num : Nat} (hnum : 0 < num) (hs : s < g.length) :
    ∃ bs, firstBuckets g num s = .ok bs ∧ bs.length = num ∧ ∀ k e, Has bs k e ↔ k = 0 ∧ e.1 = s ∧ Edge g e.1 e.2 := by
  have hrow : g[s]? = some (g[s]'hs) := by simp [hs]
  unfold firstBuckets
  rw [vget_of_lt hs, res_bind_ok]
  have key : ∀ (row : List (Nat × α)) (bs : Buckets), 0 < bs.length → ∃ bs', row.foldlM (fun bs a => do
      let b ← vget bs 0
      vset bs 0 (b ++ [(s, a.1)])) bs = (.ok bs' : Res Buckets) ∧ bs'.length = bs.length ∧ ∀ k e, Has bs' k e ↔ Has bs k e ∨ (k = 0 ∧ e ∈ row.map fun a => (s, a.1)) := by
    intro row
    induction row with
    | nil => intro bs _; exact ⟨bs, rfl, rfl, fun k e => by simp⟩
    | cons a row ih =>
      intro bs hb
      obtain ⟨b2, k1, k2, k3⟩ := ih (bs.set 0 (bs[0]'hb ++ [(s, a.1)])) (by simpa using hb)
      refine ⟨b2, ?_, by rw [k2, List.length_set], fun k e => ?_⟩
      · rw [List.foldlM_cons, vget_of_lt hb, res_bind_ok, vset_of_lt hb, res_bind_ok]
        exact k1
      · rw [k3]
        have h0 : bs[0]? = some (bs[0]'hb) := by simp [hb]
        have : Has (bs.set 0 (bs[0]'hb ++ [(s, a.1)])) k e ↔ Has bs k e ∨ (k = 0 ∧ e = (s, a.1)) := by
          constructor
          · rintro ⟨c, hc, he⟩
            rcases getElem?_set_cases hc with ⟨rfl, rfl⟩ | ⟨-, hc⟩
            · rw [List.mem_append, List.mem_singleton] at he
              rcases he with he | he
              · exact Or.inl ⟨_, h0, he⟩
              · exact Or.inr ⟨rfl, he⟩
            · exact Or.inl ⟨c, hc, he⟩
          · rintro (⟨c, hc, he⟩ | ⟨rfl, rfl⟩)
            · by_cases d : k = 0
              · subst d
                rw [h0] at hc; cases hc
                exact ⟨_, getElem?_set_same h0, List.mem_append_left _ he⟩
              · exact ⟨c, by rw [getElem?_set_other (Ne.symm d)]; exact hc, he⟩
            · exact ⟨_, getElem?_set_same h0, by simp⟩
        rw [this, List.map_cons, List.mem_cons]
        constructor
        · rintro ((k | ⟨a1, a2⟩) | ⟨a1, a2⟩)
          · exact Or.inl k
          · exact Or.inr ⟨a1, Or.inl a2⟩
          · exact Or.inr ⟨a1, Or.inr a2⟩
        · rintro (k | ⟨a1, a2 | a2⟩)
          · exact Or.inl (Or.inl k)
          · exact Or.inl (Or.inr ⟨a1, a2⟩)
          · exact Or.inr ⟨a1, a2⟩
  obtain ⟨bs, k1, k2, k3⟩ := key (g[s]'hs) (List.replicate num []) (by simpa using hnum)
  refine ⟨bs, k1, by rw [k2, List.length_replicate], fun k e => ?_⟩
  rw [k3, mem_row hrow]
  constructor
  · rintro (⟨c, hc, he⟩ | k)
    · rw [List.getElem?_replicate] at hc
      split at hc
      · cases hc; simp at he
      · cases hc
    · exact k
  · exact Or.inr

/-- The state at the beginning. -/
theorem at_start {num : Nat} (hnum : 0 < num) (hs : s < g.length) {vs0 : List Node} (hv0 : vs0.length = g.length) (he0 : ∀ (v : Nat) (x : Node), vs0[v]? = some x → ∀ w, (x.edge w).1 = 0) :
    ∃ vs bs, reset M inf vs0 s = .ok vs ∧ firstBuckets g num s = .ok bs ∧ At M inf dl g s 0 { top := 0, bs := bs, vs := vs } := by
  obtain ⟨bs, b1, b2, b3⟩ := first_ok (g := g) hnum hs
  have hvec : Vec g.length (fun v => { (vs0.getD v { l := 0, pc := 0, preds := [], succs := [], edge := fun _ => (0, 0) }) with l := inf, pc := 0, preds := [], succs := [] })
      (vs0.map fun x => { x with l := inf, pc := 0, preds := [], succs := [] }) := by
    refine ⟨by rw [List.length_map, hv0], fun v hv => ?_⟩
    rw [← hv0] at hv
    rw [List.getElem?_map]
    simp [hv]
  obtain ⟨vs1, e1, e2⟩ := modify_vec hvec hs fun x => { x with l := 0, pc := 1 % M }
  refine ⟨vs1, bs, e1, b1, ⟨_, e2, ?_⟩, by show 0 < bs.length; omega, ?_, Nat.zero_le _⟩
  · have hno : ∀ x y, ¬ R g s 0 [] x y := by
      rintro x y ⟨d, -, -, -, h | ⟨-, h⟩⟩
      · omega
      · simp at h
    refine ⟨?_, ?_, ?_, ?_, ?_, ?_, ?_, ?_, ?_, ?_⟩
    · intro w _; dsimp only; split <;> exact List.nodup_nil
    · intro w _ u; dsimp only; split <;> simp [hno]
    · intro w _; dsimp only; split <;> exact List.nodup_nil
    · intro w _ u; dsimp only; split <;> simp [hno]
    · simp
    · intro w _ u d hh; exact absurd hh (hno _ _)
    · intro w _ hw _; simp [hw]
    · intro w _ hw; simp [hw]
    · intro u _ w hh; exact absurd hh (hno _ _)
    · intro u hu w _
      left
      rw [← hv0] at hu
      have h0 := he0 u (vs0[u]'hu) (by simp [hu]) w
      have : vs0.getD u { l := 0, pc := 0, preds := [], succs := [], edge := fun _ => (0, 0) } = vs0[u]'hu := by
        rw [List.getD_eq_getElem?_getD]; simp [hu]
      dsimp only
      split
      · rename_i c; subst c; rw [this]; exact h0
      · rw [this]; exact h0
  · intro k e
    show Has bs k e ↔ k = 0 ∧ _
    rw [b3]
    constructor
    · rintro ⟨a1, a2, a3⟩; exact ⟨a1, by rw [a2]; exact IsDist.zero g s, a3⟩
    · rintro ⟨a1, a2, a3⟩; exact ⟨a1, a2.of_zero, a3⟩

end NW.BcNoAbs
