import Verif.Props.Sssp
import Verif.Props.DeltaPar
import Verif.Lemmas.ListRes

/-! # Property C144: shortest paths whose weights do not fit the type -/

namespace NW.Sssp
open Spec

variable {α τ : Type}

/-- What is left of a result when sums may wrap around: the source has distance 0, and every entry that is not `inf` is the weight of a walk to this vertex, modulo the
number of values of the type. -/
def Wrapped (g : Rows α) (wt : Nat × α → Nat) (s inf dmax : Nat) (r : List Nat) : Prop :=
  r.length = g.length ∧ r[s]? = some 0 ∧ ∀ v x, r[v]? = some x → x = inf ∨ x < inf ∧ ∃ y, WWalk g wt s v y ∧ x = y % (dmax + 1)

/-- `v` has a distance. -/
def Live (inf : Nat) (d : List Nat) (v : Nat) : Prop := ∃ x, d[v]? = some x ∧ x < inf

theorem sum_set_lt {d : List Nat} {v x y : Nat} (h : d[v]? = some x) (hy : y < x) : (d.set v y).sum < d.sum := by
  have := sum_map_set_lt (fun n : Nat => n) (t' := y) h hy
  simpa using this

/-- One row, whatever the weights are.  `ok p q` says that all that is in the queue satisfies `p`. -/
theorem scan_wrap {g : Rows α} (hg : InRange g) {wt : Nat × α → Nat} {s inf dmax : Nat} {push : Nat → Nat → τ → Res τ} (ok : (Nat → Prop) → τ → Prop)
    (hmono : ∀ {p p' : Nat → Prop} {q : τ}, (∀ v, p v → p' v) → ok p q → ok p' q)
    (hpush : ∀ {p : Nat → Prop} {q : τ} {j nd : Nat}, ok p q → p j → ∃ q', push j nd q = .ok q' ∧ ok p q')
    {u : Nat} {d : List Nat} {q : τ} (hu : Live inf d u) (hd : Wrapped g wt s inf dmax d) (hq : ok (Live inf d) q) :
    ∃ d' q', (g.getD u []).foldlM (relax wt dmax push u) (d, q) = .ok (d', q') ∧ Wrapped g wt s inf dmax d' ∧ (∀ v, Live inf d v → Live inf d' v) ∧
      ok (Live inf d') q' ∧ ((d' = d ∧ q' = q) ∨ d'.sum < d.sum) := by
  obtain ⟨⟨d', q'⟩, h1, h2⟩ := foldlM_list_inv (l := g.getD u []) (f := relax wt dmax push u) (s := (d, q))
    (fun _ st => Wrapped g wt s inf dmax st.1 ∧ (∀ v, Live inf d v → Live inf st.1 v) ∧ ok (Live inf st.1) st.2 ∧ ((st.1 = d ∧ st.2 = q) ∨ st.1.sum < d.sum))
    ⟨hd, fun _ h => h, hq, .inl ⟨rfl, rfl⟩⟩ (by
      rintro pre e post hrow ⟨d₁, q₁⟩ ⟨k1, k2, k3, k4⟩
      dsimp only at k1 k2 k3 k4
      have he : e ∈ g.getD u [] := by rw [hrow]; simp
      have hev : e.1 < d₁.length := by rw [k1.1]; exact hg u e.1 (Bfs.mem_row_edge he)
      obtain ⟨x, hx, hxi⟩ := k2 u hu
      have hgv : d₁[e.1]? = some d₁[e.1] := List.getElem?_eq_getElem hev
      unfold relax
      dsimp only
      rw [vget_eq_ok.2 hx, res_bind_ok, vget_eq_ok.2 hgv, res_bind_ok]
      by_cases c : (x + wt e) % (dmax + 1) < d₁[e.1]
      · rw [if_pos c, vset_of_lt hev, res_bind_ok]
        have hle : d₁[e.1] ≤ inf := by
          rcases k1.2.2 _ _ hgv with h | ⟨h, -⟩ <;> omega
        have hlive : ∀ v, Live inf d₁ v → Live inf (d₁.set e.1 ((x + wt e) % (dmax + 1))) v := by
          rintro v ⟨y, h1, h2⟩
          by_cases ev : e.1 = v
          · subst ev
            exact ⟨_, getElem?_set_same h1, by omega⟩
          · exact ⟨y, by rw [getElem?_set_other ev]; exact h1, h2⟩
        have hself : Live inf (d₁.set e.1 ((x + wt e) % (dmax + 1))) e.1 := ⟨_, getElem?_set_same hgv, by omega⟩
        obtain ⟨q₂, m1, m2⟩ := hpush (nd := (x + wt e) % (dmax + 1)) (hmono hlive k3) hself
        rw [m1]
        refine ⟨_, rfl, ⟨by simpa using k1.1, ?_, ?_⟩, fun v hv => hlive v (k2 v hv), m2, .inr ?_⟩
        · have hs : e.1 ≠ s := by
            intro h
            have h0 := k1.2.1
            rw [← h, hgv] at h0
            have := Option.some.inj h0
            omega
          dsimp only
          rw [getElem?_set_other hs]
          exact k1.2.1
        · intro v y hv
          rcases getElem?_set_cases hv with ⟨rfl, rfl⟩ | ⟨-, hv⟩
          · right
            refine ⟨by omega, ?_⟩
            rcases k1.2.2 _ _ hx with h | ⟨-, z, hz, hxz⟩
            · omega
            · exact ⟨z + wt e, .snoc hz he, by rw [hxz, Nat.mod_add_mod]⟩
          · exact k1.2.2 v y hv
        · have := sum_set_lt hgv c
          rcases k4 with ⟨rfl, -⟩ | k4
          · exact this
          · exact Nat.lt_trans this k4
      · rw [if_neg c]
        exact ⟨_, rfl, k1, k2, k3, k4⟩)
  exact ⟨d', q', h1, h2⟩

theorem wrapped_init (g : Rows α) (wt : Nat × α → Nat) {s inf : Nat} (dmax : Nat) (hs : s < g.length) (hinf : 0 < inf) :
    Wrapped g wt s inf dmax ((List.replicate g.length inf).set s 0) ∧ Live inf ((List.replicate g.length inf).set s 0) s := by
  have h0 : ((List.replicate g.length inf).set s 0)[s]? = some 0 := by
    rw [List.getElem?_set, if_pos rfl, if_pos (by simpa using hs)]
  refine ⟨⟨by simp, h0, fun v x hv => ?_⟩, 0, h0, hinf⟩
  rcases getElem?_set_cases hv with ⟨rfl, rfl⟩ | ⟨-, hv⟩
  · exact .inr ⟨hinf, 0, .nil, by simp⟩
  · exact .inl (List.eq_of_mem_replicate (List.mem_of_getElem? hv))

/-- C144 for `dijkstra`, the part that holds.  Whatever the weights are and whatever entry the queue hands out, it ends without a fault; what it returns are weights of
walks modulo the number of values of the type. -/
theorem dijkstra_any_weights_partial (g : Rows α) (hg : InRange g) (wt : Nat × α → Nat) (source inf dmax : Nat) (hs : source < g.length) (hinf : 0 < inf) :
    ∃ st, dInit g inf source = .ok st ∧ Sure (DStep g wt dmax) (Wrapped g wt source inf dmax) st := by
  obtain ⟨h1, h2⟩ := wrapped_init g wt dmax hs hinf
  refine ⟨((List.replicate g.length inf).set source 0, [(source, 0)]), ?_, ?_⟩
  · unfold dInit
    rw [show check (source < g.length) = .ok () from by simp [check, hs], res_bind_ok, vset_of_lt (by simpa using hs), res_bind_ok]; rfl
  · refine Sure.of_inv (Prod.lex Nat.lt_wfRel Nat.lt_wfRel).wf (fun st : List Nat × List (Nat × Nat) => (st.1.sum, st.2.length))
      (fun st => Wrapped g wt source inf dmax st.1 ∧ ∀ x ∈ st.2, Live inf st.1 x.1) ?_ ?_ _ ⟨h1, by simpa using h2⟩
    · rintro ⟨d, q⟩ -
      cases q with
      | nil => exact ⟨_, .done⟩
      | cons x q' => exact ⟨_, .pop (u := x.1) (d := x.2) (List.Perm.refl _)⟩
    · rintro ⟨d, q⟩ o ⟨hw, hq⟩ ho
      cases ho with
      | done => exact .inr ⟨_, rfl, hw⟩
      | @pop _ _ q' u l hp =>
        dsimp only at hw hq
        have hu : Live inf d u := hq (u, l) (hp.mem_iff.2 (by simp))
        obtain ⟨d', q'', e1, e2, -, e4, e5⟩ := scan_wrap (push := pushQ) hg (fun p q => ∀ x ∈ q, p x.1) (fun h1 h2 x hx => h1 _ (h2 x hx))
          (fun {p q j nd} h1 h2 => ⟨q ++ [(j, nd)], rfl, fun x hx => by
            rcases List.mem_append.1 hx with hx | hx
            · exact h1 x hx
            · simp at hx; subst hx; exact h2⟩) hu hw (q := q') (fun x hx => hq x (hp.mem_iff.2 (by simp [hx])))
        have hul : u < g.length := by
          obtain ⟨x, hx, -⟩ := hu
          rw [← hw.1]
          exact (List.getElem?_eq_some_iff.1 hx).1
        refine .inl ⟨(d', q''), ?_, ⟨e2, e4⟩, ?_⟩
        · rw [Bfs.vget_row hul, res_bind_ok, e1]; rfl
        · rcases e5 with ⟨rfl, rfl⟩ | e5
          · have := hp.length_eq
            simp at this
            exact Prod.Lex.right _ (show q''.length < q.length by omega)
          · exact Prod.Lex.left _ _ e5

/-- C144 for `delta_stepping`, the part that holds. -/
theorem delta_stepping_any_weights_partial (g : Rows α) (hg : InRange g) (wt : Nat × α → Nat) (source dmax delta : Nat) (hs : source < g.length) (hd : 0 < delta) (hmax : 0 < dmax) :
    ∃ r, Delta g wt dmax delta source (.ok r) ∧ Wrapped g wt source dmax dmax r := by
  obtain ⟨h1, h2⟩ := wrapped_init g wt (inf := dmax) dmax hs hmax
  have frontier : ∀ (top : Nat) (fr d : List Nat) (bins : List (List Nat)), (∀ i ∈ fr, Live dmax d i) → Wrapped g wt source dmax dmax d → (∀ b ∈ bins, ∀ x ∈ b, Live dmax d x) →
      ∃ d' bins', fr.foldlM (sVertex g wt dmax delta top) (d, bins) = .ok (d', bins') ∧ Wrapped g wt source dmax dmax d' ∧ (∀ b ∈ bins', ∀ x ∈ b, Live dmax d' x) ∧
        ((d' = d ∧ bins' = bins) ∨ d'.sum < d.sum) := by
    intro top fr
    induction fr with
    | nil => intro d bins _ k2 k3; exact ⟨d, bins, rfl, k2, k3, .inl ⟨rfl, rfl⟩⟩
    | cons i fr ih =>
      intro d bins k1 k2 k3
      have hi := k1 i (by simp)
      obtain ⟨x, hx, -⟩ := id hi
      have hil : i < g.length := by
        rw [← k2.1]
        exact (List.getElem?_eq_some_iff.1 hx).1
      obtain ⟨d₁, b₁, e1, e2, e3, e4, e5⟩ : ∃ d₁ b₁, sVertex g wt dmax delta top (d, bins) i = .ok (d₁, b₁) ∧ Wrapped g wt source dmax dmax d₁ ∧
          (∀ v, Live dmax d v → Live dmax d₁ v) ∧ (∀ b ∈ b₁, ∀ x ∈ b, Live dmax d₁ x) ∧ ((d₁ = d ∧ b₁ = bins) ∨ d₁.sum < d.sum) := by
        unfold sVertex
        dsimp only
        rw [vget_eq_ok.2 hx, res_bind_ok]
        by_cases c : x ≥ delta * top
        · rw [if_pos c, Bfs.vget_row hil, res_bind_ok]
          exact scan_wrap (push := pushBin delta) hg (fun p bins => ∀ b ∈ bins, ∀ x ∈ b, p x) (fun h1 h2 b hb x hx => h1 _ (h2 b hb x hx))
            (fun {p q j nd} m1 m2 => by
              obtain ⟨bins', c1, -, -, c4⟩ := pushBin_ok hd j nd q
              refine ⟨bins', c1, fun b hb x hx => ?_⟩
              rcases c4 b hb x hx with rfl | ⟨b', hb', hx'⟩
              · exact m2
              · exact m1 b' hb' x hx') hi k2 k3
        · rw [if_neg c]
          exact ⟨d, bins, rfl, k2, fun _ h => h, k3, .inl ⟨rfl, rfl⟩⟩
      obtain ⟨d₂, b₂, f1, f2, f3, f4⟩ := ih d₁ b₁ (fun j hj => e3 j (k1 j (by simp [hj]))) e2 e4
      refine ⟨d₂, b₂, by rw [List.foldlM_cons, e1, res_bind_ok, f1], f2, f3, ?_⟩
      rcases e5 with ⟨rfl, rfl⟩ | e5
      · exact f4
      · rcases f4 with ⟨rfl, rfl⟩ | f4
        · exact .inr e5
        · exact .inr (Nat.lt_trans f4 e5)
  obtain ⟨⟨d, bins, top⟩, r, ⟨hw, -⟩, hb, hl⟩ := Loop.totalWf (body := sBody g wt dmax delta)
    (fun s => Wrapped g wt source dmax dmax s.1 ∧ (∀ b ∈ s.2.1, ∀ x ∈ b, Live dmax s.1 x) ∧ ∀ b, s.2.1[s.2.2]? = some b → b ≠ [])
    (fun s => (s.1.sum, (s.2.1.map List.length).sum)) (Prod.lex Nat.lt_wfRel Nat.lt_wfRel).wf
    (by
      rintro ⟨d, bins, top⟩ ⟨hw, hB, hne⟩
      dsimp only at hw hB hne
      by_cases c : top < bins.length
      · left
        have hget : bins[top]? = some bins[top] := List.getElem?_eq_getElem c
        obtain ⟨d', bins', k1, k2, k3, k4⟩ := frontier top bins[top] d (bins.set top []) (fun i hi => hB _ (List.getElem_mem c) i hi) hw (fun b hb x hx => by
          rcases List.mem_or_eq_of_mem_set hb with h | h
          · exact hB b h x hx
          · subst h; cases hx)
        refine ⟨(d', bins', skipEmpty bins' top), ?_, ⟨k2, k3, (skipEmpty_spec bins' top).2.2⟩, ?_⟩
        · simp only [sBody]
          rw [if_pos c, vget_of_lt c, res_bind_ok, vset_of_lt c, res_bind_ok, k1, res_bind_ok]; rfl
        · dsimp only
          rcases k4 with ⟨rfl, rfl⟩ | k4
          · exact Prod.Lex.right _ (sum_map_set_lt List.length hget (List.length_pos_iff.2 (hne _ hget)))
          · exact Prod.Lex.left _ _ k4
      · right
        refine ⟨d, ?_⟩
        simp only [sBody]
        rw [if_neg c]; rfl)
    ((List.replicate g.length dmax).set source 0, [[source]], 0) ⟨h1, by simpa using h2, by simp⟩
  refine ⟨r, ?_, ?_⟩
  · unfold Delta
    rw [vset_of_lt (by simpa using hs)]
    exact hl
  · dsimp only at hw
    simp only [sBody] at hb
    split at hb
    · next c =>
      revert hb
      cases vget bins top with
      | error f => intro h; cases h
      | ok fr =>
        rw [res_bind_ok]
        cases vset bins top [] with
        | error f => intro h; cases h
        | ok bins' =>
          rw [res_bind_ok]
          cases fr.foldlM (sVertex g wt dmax delta top) (d, bins') with
          | error f => intro h; cases h
          | ok st => intro h; cases h
    · cases hb
      exact hw

/-- What holds of a task of the parallel `delta_stepping`: what it has computed is the weight of a walk modulo the number of values. -/
def TaskWrap (g : Rows α) (wt : Nat × α → Nat) (s dmax : Nat) (d : List Nat) : PTask α → Prop
  | .vertex u => Live dmax d u
  | .start u e => Live dmax d u ∧ e ∈ g.getD u []
  | .haveNext v next => v < g.length ∧ ∃ y, WWalk g wt s v y ∧ next = y % (dmax + 1)
  | .havePrev v next _ _ => v < g.length ∧ ∃ y, WWalk g wt s v y ∧ next = y % (dmax + 1)
  | .push v _ => Live dmax d v
  | .done => True

theorem TaskWrap.mono {g : Rows α} {wt : Nat × α → Nat} {s dmax : Nat} {d d' : List Nat} (h : ∀ v, Live dmax d v → Live dmax d' v) {t : PTask α} (ht : TaskWrap g wt s dmax d t) :
    TaskWrap g wt s dmax d' t := by
  cases t with
  | vertex u => exact h u ht
  | start u e => exact ⟨h u ht.1, ht.2⟩
  | haveNext v next => exact ht
  | havePrev v next prev tried => exact ht
  | push v next => exact h v ht
  | done => trivial

/-- The invariant of a state: distances are weights of walks modulo the number of values, what waits in bins or belongs to a task has a distance. -/
def StateWrap (g : Rows α) (wt : Nat × α → Nat) (s dmax : Nat) : PState α → Prop
  | .head d bins top => Wrapped g wt s dmax dmax d ∧ (∀ b ∈ bins, ∀ x ∈ b, Live dmax d x) ∧ ∀ b, bins[top]? = some b → b ≠ []
  | .round d bins _ ts => Wrapped g wt s dmax dmax d ∧ (∀ b ∈ bins, ∀ x ∈ b, Live dmax d x) ∧ ∀ t ∈ ts, TaskWrap g wt s dmax d t

theorem pTask_wrap {g : Rows α} (hg : InRange g) {wt : Nat × α → Nat} {s dmax delta top : Nat} (hd : 0 < delta) {d : List Nat} {bins : List (List Nat)} {ts : List (PTask α)}
    (h : StateWrap g wt s dmax (.round d bins top ts)) {i : Nat} {t : PTask α} (hi : ts[i]? = some t) (hf : t.isDone = false) :
    ∃ d' bins' t' new, pTask g wt dmax delta (some false) top d bins t = .ok (d', bins', t', new) ∧ StateWrap g wt s dmax (.round d' bins' top (ts.set i t' ++ new)) ∧
      pLt (pMeasure dmax (.round d' bins' top (ts.set i t' ++ new))) (pMeasure dmax (.round d bins top ts)) := by
  obtain ⟨hw, hB, hT⟩ := h
  have ht := hT t (List.mem_of_getElem? hi)
  have hkeep : ∀ {t' : PTask α} {new : List (PTask α)}, TaskWrap g wt s dmax d t' → (∀ x ∈ new, TaskWrap g wt s dmax d x) → ∀ x ∈ ts.set i t' ++ new, TaskWrap g wt s dmax d x := by
    intro t' new h1 h2 x hx
    rcases List.mem_append.1 hx with hx | hx
    · rcases List.mem_or_eq_of_mem_set hx with hx | rfl
      · exact hT x hx
      · exact h1
    · exact h2 x hx
  have h2set := fun t' : PTask α => sum_map_set_eq w2 t' hi
  have h3set := fun t' : PTask α => sum_map_set_eq (w3 (lab dmax d)) t' hi
  have hlt : ∀ {v : Nat} {x : Nat}, d[v]? = some x → v < g.length := by
    intro v x hx
    rw [← hw.1]
    exact (List.getElem?_eq_some_iff.1 hx).1
  cases t with
  | vertex u =>
    obtain ⟨x, hx, hxi⟩ := id ht
    have m2 := h2set .done
    simp only [w2] at m2
    unfold pTask
    dsimp only
    rw [vget_eq_ok.2 hx, res_bind_ok]
    by_cases c : x ≥ delta * top
    · rw [if_pos c, Bfs.vget_row (hlt hx), res_bind_ok]
      refine ⟨_, _, _, _, rfl, ⟨hw, hB, hkeep trivial ?_⟩, ?_⟩
      · intro y hy
        obtain ⟨e, he, rfl⟩ := List.mem_map.1 hy
        exact ⟨ht, he⟩
      · have e2 : (((g.getD u []).map (PTask.start u)).map w2).sum = 0 := by
          rw [List.map_map]
          generalize g.getD u [] = l
          induction l with
          | nil => rfl
          | cons y l ih => simpa [w2] using ih
        refine Prod.Lex.right _ (Prod.Lex.left _ _ ?_)
        rw [List.map_append, List.sum_append, e2]
        omega
    · rw [if_neg c]
      refine ⟨_, _, _, _, rfl, ⟨hw, hB, hkeep trivial (by simp)⟩, ?_⟩
      refine Prod.Lex.right _ (Prod.Lex.left _ _ ?_)
      rw [List.append_nil]
      omega
  | start u e =>
    obtain ⟨⟨x, hx, hxi⟩, he⟩ := ht
    have m2 := h2set (.haveNext e.1 ((x + wt e) % (dmax + 1)))
    have m3 := h3set (.haveNext e.1 ((x + wt e) % (dmax + 1)))
    simp only [w2, w3] at m2 m3
    unfold pTask
    dsimp only
    rw [vget_eq_ok.2 hx, res_bind_ok]
    refine ⟨_, _, _, _, rfl, ⟨hw, hB, hkeep ⟨hg u e.1 (Bfs.mem_row_edge he), ?_⟩ (by simp)⟩, ?_⟩
    · rcases hw.2.2 u x hx with h | ⟨-, z, hz, hxz⟩
      · omega
      · exact ⟨z + wt e, .snoc hz he, by rw [hxz, Nat.mod_add_mod]⟩
    · rw [List.append_nil]
      simp only [pMeasure]
      rw [show ((ts.set i (PTask.haveNext e.1 ((x + wt e) % (dmax + 1)))).map w2).sum = (ts.map w2).sum by omega]
      exact Prod.Lex.right _ (Prod.Lex.right _ (by omega))
  | haveNext v next =>
    obtain ⟨hv, y, hy, rfl⟩ := id ht
    have hx : d[v]? = some (lab dmax d v) := lab_some hw.1 hv
    have m2 := h2set (.havePrev v (y % (dmax + 1)) (lab dmax d v) false)
    have m3 := h3set (.havePrev v (y % (dmax + 1)) (lab dmax d v) false)
    simp only [w2, w3, if_true] at m2 m3
    unfold pTask
    dsimp only
    rw [vget_eq_ok.2 hx, res_bind_ok]
    refine ⟨_, _, _, _, rfl, ⟨hw, hB, hkeep ht (by simp)⟩, ?_⟩
    rw [List.append_nil]
    simp only [pMeasure]
    rw [show ((ts.set i (PTask.havePrev v (y % (dmax + 1)) (lab dmax d v) false)).map w2).sum = (ts.map w2).sum by omega]
    exact Prod.Lex.right _ (Prod.Lex.right _ (by omega))
  | havePrev v next prev tried =>
    obtain ⟨hv, y, hy, hny⟩ := id ht
    have hx : d[v]? = some (lab dmax d v) := lab_some hw.1 hv
    unfold pTask
    dsimp only
    have hfin : StateWrap g wt s dmax (.round d bins top (ts.set i .done ++ [])) ∧ pLt (pMeasure dmax (.round d bins top (ts.set i .done ++ []))) (pMeasure dmax (.round d bins top ts)) := by
      have m2 := h2set .done
      have m3 := h3set .done
      simp only [w2, w3] at m2 m3
      refine ⟨⟨hw, hB, hkeep trivial (by simp)⟩, ?_⟩
      rw [List.append_nil]
      simp only [pMeasure]
      rw [show ((ts.set i (PTask.done)).map w2).sum = (ts.map w2).sum by omega]
      refine Prod.Lex.right _ (Prod.Lex.right _ ?_)
      split at m3 <;> omega
    by_cases c : next < prev
    · rw [if_pos c, vget_eq_ok.2 hx, res_bind_ok]
      by_cases c2 : lab dmax d v = prev
      · rw [if_pos c2, vset_of_lt (by rw [hw.1]; exact hv), res_bind_ok]
        have hle : lab dmax d v ≤ dmax := by
          rcases hw.2.2 _ _ hx with h | ⟨h, -⟩ <;> omega
        have hlive : ∀ u, Live dmax d u → Live dmax (d.set v next) u := by
          rintro u ⟨x, h1, h2⟩
          by_cases ev : v = u
          · subst ev
            exact ⟨_, getElem?_set_same h1, by omega⟩
          · exact ⟨x, by rw [getElem?_set_other ev]; exact h1, h2⟩
        have hself : Live dmax (d.set v next) v := ⟨_, getElem?_set_same hx, by omega⟩
        refine ⟨_, _, _, _, rfl, ⟨⟨by simpa using hw.1, ?_, ?_⟩, fun b hb x hx => hlive x (hB b hb x hx), ?_⟩, ?_⟩
        · have hs : v ≠ s := by
            intro h
            have h0 := hw.2.1
            rw [← h, hx] at h0
            have := Option.some.inj h0
            omega
          rw [getElem?_set_other hs]
          exact hw.2.1
        · intro u x hu
          rcases getElem?_set_cases hu with ⟨rfl, rfl⟩ | ⟨-, hu⟩
          · exact .inr ⟨by omega, y, hy, hny⟩
          · exact hw.2.2 u x hu
        · intro x hx
          rw [List.append_nil] at hx
          rcases List.mem_or_eq_of_mem_set hx with hx | rfl
          · exact (hT x hx).mono hlive
          · exact hself
        · exact Prod.Lex.left _ _ (sum_set_lt hx (by omega))
      · rw [if_neg c2]
        have m2 := h2set (.havePrev v next (lab dmax d v) true)
        have m3 := h3set (.havePrev v next (lab dmax d v) true)
        simp only [w2, w3, if_true, if_neg (Ne.symm c2)] at m2 m3
        refine ⟨_, _, _, _, rfl, ⟨hw, hB, hkeep ht (by simp)⟩, ?_⟩
        rw [List.append_nil]
        simp only [pMeasure]
        rw [show ((ts.set i (PTask.havePrev v next (lab dmax d v) true)).map w2).sum = (ts.map w2).sum by omega]
        exact Prod.Lex.right _ (Prod.Lex.right _ (by omega))
    · rw [if_neg c]
      cases tried with
      | true => exact ⟨_, _, _, _, rfl, hfin⟩
      | false => exact ⟨_, _, _, _, rfl, hfin⟩
  | push v next =>
    obtain ⟨bins', c1, -, -, c4⟩ := pushBin_ok hd v next bins
    have m2 := h2set .done
    have m3 := h3set .done
    have m1 := pushBin_total c1
    simp only [w2, w3] at m2 m3
    unfold pTask
    dsimp only
    rw [c1, res_bind_ok]
    refine ⟨_, _, _, _, rfl, ⟨hw, ?_, hkeep trivial (by simp)⟩, ?_⟩
    · intro b hb x hx
      rcases c4 b hb x hx with rfl | ⟨b', hb', hx'⟩
      · exact ht
      · exact hB b' hb' x hx'
    · rw [List.append_nil]
      simp only [pMeasure]
      rw [show 2 * (bins'.map List.length).sum + ((ts.set i (PTask.done)).map w2).sum = 2 * (bins.map List.length).sum + (ts.map w2).sum by omega]
      exact Prod.Lex.right _ (Prod.Lex.right _ (by omega))
  | done => cases hf

/-- C144 for the parallel `delta_stepping`, the part that holds: if the uninitialised flag reads as `false`, it ends without a fault under every schedule, whatever the weights are. -/
theorem delta_stepping_parallel_any_weights_partial (g : Rows α) (hg : InRange g) (wt : Nat × α → Nat) (source dmax delta : Nat) (hs : source < g.length) (hd : 0 < delta) (hmax : 0 < dmax) :
    ∃ st, pInit g dmax source = .ok st ∧ Sure (PStep g wt dmax delta (some false)) (Wrapped g wt source dmax dmax) st := by
  obtain ⟨h1, h2⟩ := wrapped_init g wt (inf := dmax) dmax hs hmax
  refine ⟨.head ((List.replicate g.length dmax).set source 0) [[source]] 0, by unfold pInit; rw [vset_of_lt (by simpa using hs), res_bind_ok]; rfl, ?_⟩
  refine Sure.of_inv pLt_wf (pMeasure dmax) (StateWrap g wt source dmax) (fun st _ => pHas_step st) ?_ _ ⟨h1, by simpa using h2, by simp⟩
  intro st o h ho
  cases ho with
  | @head d bins top =>
    obtain ⟨hw, hB, hne⟩ := h
    by_cases c : top < bins.length
    · left
      have hget : bins[top]? = some bins[top] := List.getElem?_eq_getElem c
      refine ⟨.round d (bins.set top []) top (bins[top].map .vertex), ?_, ⟨hw, ?_, ?_⟩, ?_⟩
      · unfold pHead
        rw [if_pos c, vget_of_lt c, res_bind_ok, vset_of_lt c, res_bind_ok]; rfl
      · intro b hb x hx
        rcases List.mem_or_eq_of_mem_set hb with h | h
        · exact hB b h x hx
        · subst h; cases hx
      · intro t ht
        obtain ⟨x, hx, rfl⟩ := List.mem_map.1 ht
        exact hB _ (List.getElem_mem c) x hx
      · have e1 := sum_map_set_eq List.length [] hget
        have e2 : ((bins[top].map (PTask.vertex (α := α))).map w2).sum = bins[top].length := by
          rw [List.map_map]
          generalize bins[top] = l
          induction l with
          | nil => rfl
          | cons x xs ih =>
            simp only [List.map_cons, List.sum_cons, List.length_cons, Function.comp, w2] at ih ⊢
            omega
        have e3 : 0 < bins[top].length := List.length_pos_iff.2 (hne _ hget)
        simp only [pMeasure, e2]
        simp only [List.length_nil] at e1
        exact Prod.Lex.right _ (Prod.Lex.left _ _ (by omega))
    · right
      exact ⟨d, by unfold pHead; rw [if_neg c]; rfl, hw⟩
  | @task d bins top ts i t hi hf =>
    obtain ⟨d', bins', t', new, k1, k2, k3⟩ := pTask_wrap hg hd h hi hf
    left
    exact ⟨.round d' bins' top (ts.set i t' ++ new), by rw [k1]; rfl, k2, k3⟩
  | @join d bins top ts hf =>
    obtain ⟨hw, hB, -⟩ := h
    left
    refine ⟨_, rfl, ⟨hw, hB, (skipEmpty_spec bins top).2.2⟩, ?_⟩
    simp only [pMeasure]
    have e2 : (ts.map w2).sum = 0 := by
      clear * - hf
      induction ts with
      | nil => rfl
      | cons x xs ih =>
        have hx := hf x (by simp)
        have := ih fun t ht => hf t (by simp [ht])
        cases x <;> first | (cases hx; done) | simpa [w2] using this
    rw [e2, Nat.add_zero]
    exact Prod.Lex.right _ (Prod.Lex.right _ (by omega))

/-- A short edge from 0 to 2, and a detour that weighs 300. -/
def exWrap : Rows Nat := [[(1, 200), (2, 50)], [(2, 100)], []]

theorem exWrap_least : IsLeast exWrap (·.2) 0 2 50 := by
  refine ⟨.snoc (e := (2, 50)) .nil (by decide), fun y hy => ?_⟩
  generalize hv : (2 : Nat) = v at hy
  cases hy with
  | nil => cases hv
  | @snoc u x e hw he =>
    match u with
    | 0 =>
      simp [exWrap] at he
      rcases he with rfl | rfl
      · cases hv
      · dsimp only; omega
    | 1 => simp [exWrap] at he; subst he; dsimp only; omega
    | 2 => simp [exWrap] at he
    | u + 3 => simp [exWrap] at he

/-- C144 is false.  With 8 bit distances the least weight 50 of the walks from 0 to 2 can be represented, but `dijkstra` can return and `delta_stepping` does return 44 for 2,
because the sum over the detour wraps around. -/
theorem weights_wrap_wrong : InRange exWrap ∧ IsLeast exWrap (·.2) 0 2 50 ∧
    (∃ st, dInit exWrap 255 0 = .ok st ∧ Runs (DStep exWrap (·.2) 255) st (.ok [0, 200, 44])) ∧
    ∀ o, Delta exWrap (·.2) 255 255 0 o → o = .ok [0, 200, 44] := by
  refine ⟨by decide, exWrap_least, ⟨_, rfl, ?_⟩, fun o ho => ?_⟩
  · refine .step (.pop (u := 0) (d := 0) (q' := []) (List.Perm.refl _)) ?_
    refine .step (.pop (u := 1) (d := 200) (q' := [(2, 50)]) (List.Perm.refl _)) ?_
    refine .step (.pop (u := 2) (d := 50) (q' := [(2, 44)]) (List.Perm.refl _)) ?_
    exact .step (.pop (u := 2) (d := 44) (q' := []) (List.Perm.refl _)) (.done .done)
  · have : Delta exWrap (·.2) 255 255 0 (.ok [0, 200, 44]) := Loop.of_runFuel (n := 9) (by decide +kernel)
    exact Delta.det ho this

/-- One step of task `i`. -/
theorem runs_task {g : Rows α} {wt : Nat × α → Nat} {dmax delta : Nat} {flag : Option Bool} {d : List Nat} {bins : List (List Nat)} {top : Nat} {ts : List (PTask α)} {o : Res (List Nat)} (i : Nat)
    {t : PTask α} {x : List Nat × List (List Nat) × PTask α × List (PTask α)} (hi : ts[i]? = some t) (hf : t.isDone = false) (h : pTask g wt dmax delta flag top d bins t = .ok x)
    (hr : Runs (PStep g wt dmax delta flag) (.round x.1 x.2.1 top (ts.set i x.2.2.1 ++ x.2.2.2)) o) : Runs (PStep g wt dmax delta flag) (.round d bins top ts) o := by
  have := PStep.task (g := g) (wt := wt) (dmax := dmax) (delta := delta) (flag := flag) (dist := d) (bins := bins) (top := top) hi hf
  rw [h] at this
  exact .step this hr

/-- C144 is false of the parallel overload too, even if its uninitialised flag reads as `false`: a schedule returns 44 for vertex 2, to which there is a walk of weight 50
(`exWrap_least`) and none of weight 44. -/
theorem weights_wrap_parallel_wrong : ∃ st, pInit exWrap 255 0 = .ok st ∧ Runs (PStep exWrap (·.2) 255 255 (some false)) st (.ok [0, 200, 44]) := by
  refine ⟨_, rfl, ?_⟩
  refine .step .head ?_
  refine runs_task 0 rfl rfl rfl ?_
  refine runs_task 1 rfl rfl rfl ?_
  refine runs_task 1 rfl rfl rfl ?_
  refine runs_task 1 rfl rfl rfl ?_
  refine runs_task 1 rfl rfl rfl ?_
  refine runs_task 2 rfl rfl rfl ?_
  refine runs_task 2 rfl rfl rfl ?_
  refine runs_task 2 rfl rfl rfl ?_
  refine runs_task 2 rfl rfl rfl ?_
  change Runs (PStep exWrap (·.2) 255 255 (some false)) (PState.round [0, 200, 50] [[1, 2]] 0 [.done, .done, .done]) _
  refine .step (.join (by simp [PTask.isDone])) ?_
  rw [show skipEmpty [[1, 2]] 0 = 0 by decide +kernel]
  refine .step .head ?_
  refine runs_task 0 rfl rfl rfl ?_
  refine runs_task 1 rfl rfl rfl ?_
  refine runs_task 2 rfl rfl rfl ?_
  refine runs_task 2 rfl rfl rfl ?_
  refine runs_task 2 rfl rfl rfl ?_
  refine runs_task 2 rfl rfl rfl ?_
  change Runs (PStep exWrap (·.2) 255 255 (some false)) (PState.round [0, 200, 44] [[2]] 0 [.done, .done, .done]) _
  refine .step (.join (by simp [PTask.isDone])) ?_
  rw [show skipEmpty [[2]] 0 = 0 by decide +kernel]
  refine .step .head ?_
  refine runs_task 0 rfl rfl rfl ?_
  change Runs (PStep exWrap (·.2) 255 255 (some false)) (PState.round [0, 200, 44] [[]] 0 [.done]) _
  refine .step (.join (by simp [PTask.isDone])) ?_
  rw [show skipEmpty [[]] 0 = 1 by decide +kernel]
  exact .done .head

/-- A case of the theorems. -/
example : InRange exWrap ∧ 0 < exWrap.length ∧ Wrapped exWrap (·.2) 0 255 255 [0, 200, 44] := by
  refine ⟨by decide, by decide, rfl, rfl, fun v x hv => ?_⟩
  match v with
  | 0 => cases hv; exact .inr ⟨by decide, 0, .nil, rfl⟩
  | 1 => cases hv; exact .inr ⟨by decide, 0 + 200, .snoc (e := (1, 200)) .nil (by decide), rfl⟩
  | 2 => cases hv; exact .inr ⟨by decide, 0 + 200 + 100, .snoc (e := (2, 100)) (.snoc (e := (1, 200)) .nil (by decide)) (by decide), rfl⟩
  | v + 3 => simp at hv

/-- A case of the theorem about the parallel overload, in which a sum wraps around. -/
example : ∃ st, pInit exWrap 255 0 = .ok st ∧ Sure (PStep exWrap (·.2) 255 255 (some false)) (Wrapped exWrap (·.2) 0 255 255) st :=
  delta_stepping_parallel_any_weights_partial exWrap (by decide) _ 0 255 255 (by decide) (by decide) (by decide)

end NW.Sssp
