import Verif.Model.DfsRange
import Verif.Concur
import Verif.Lemmas.ListRes
import Mathlib.Data.List.Nodup
import Mathlib.Data.List.Basic
import Mathlib.Data.List.Perm.Subperm
import Mathlib.Tactic.ByContra

/-!
# C56: `dfs_range`
-/

namespace NW.DfsRange
open Spec

variable {α : Type}

theorem step_ok_inl {m : Res (St α)} {s : St α} (h : (Sum.inl <$> m : Res (St α ⊕ List Nat)) = .ok (.inl s)) : m = .ok s := by
  cases m with
  | error e => cases h
  | ok x => cases h; rfl

theorem step_ok_inr {m : Res (St α)} {r : List Nat} (h : (Sum.inl <$> m : Res (St α ⊕ List Nat)) = .ok (.inr r)) : False := by
  cases m with
  | error e => cases h
  | ok x => cases h

theorem vset_length {β : Type} {l l' : List β} {i : Nat} {a : β} (h : vset l i a = .ok l') : l'.length = l.length := by
  unfold vset at h
  split at h
  · cases h; simp
  · cases h

/-- C56 fails for every graph and seed: no loop over a `dfs_range` ends normally. -/
theorem dfs_range_never_ends (g : Rows α) (seed : Nat) (st : St α) (hst : start g seed = .ok st) (out : List Nat) : ¬ Loop (step g) st (.ok out) := by
  intro hl
  obtain ⟨s, h1, h2⟩ := During.of_loop hl
  have hI : s.colors.length = g.length ∧ (match s.mode with | .visit _ _ => s.q ≠ [] | .head => s.q ≠ [] | _ => True) := by
    refine Steps.inv (fun s : St α => s.colors.length = g.length ∧ (match s.mode with | .visit _ _ => s.q ≠ [] | .head => s.q ≠ [] | _ => True)) ?_ ?_ h1
    · rintro ⟨mode, q, colors, cursor, o⟩ s' ⟨hc, hm⟩ hs
      cases mode with
      | visit v rest =>
        cases rest with
        | nil => cases hs; exact ⟨hc, hm⟩
        | cons x rest =>
          have := step_ok_inl hs
          unfold visitStep at this
          dsimp only at this hc
          cases hg : vget colors x.1 with
          | error e => rw [hg] at this; cases this
          | ok c =>
            rw [hg, res_bind_ok] at this
            split at this
            · cases h3 : vset colors v .grey with
              | error e => rw [h3] at this; cases this
              | ok c1 =>
                rw [h3, res_bind_ok] at this
                cases h4 : vget g x.1 with
                | error e => rw [h4] at this; cases this
                | ok row =>
                  rw [h4, res_bind_ok] at this
                  cases h5 : vset c1 x.1 .black with
                  | error e => rw [h5] at this; cases this
                  | ok c2 =>
                    rw [h5, res_bind_ok] at this
                    cases this
                    exact ⟨by dsimp only; rw [vset_length h5, vset_length h3, hc], by simp⟩
            · cases h3 : vset colors v .black with
              | error e => rw [h3] at this; cases this
              | ok c1 =>
                rw [h3, res_bind_ok] at this
                cases this
                exact ⟨by dsimp only; rw [vset_length h3, hc], by simp⟩
      | head =>
        cases q with
        | nil => exact absurd rfl hm
        | cons x q => cases hs; exact ⟨hc, trivial⟩
      | pop =>
        have := step_ok_inl hs
        unfold popStep at this
        cases q with
        | nil => cases this; exact ⟨hc, trivial⟩
        | cons x q =>
          dsimp only at this
          cases h3 : vget colors x with
          | error e => rw [h3] at this; cases this
          | ok c =>
            rw [h3, res_bind_ok] at this
            split at this
            · cases this; exact ⟨hc, trivial⟩
            · cases h4 : vget g x with
              | error e => rw [h4] at this; cases this
              | ok row => rw [h4, res_bind_ok] at this; cases this; exact ⟨hc, by simp⟩
      | search =>
        have := step_ok_inl hs
        unfold searchStep at this
        dsimp only at this hc
        cases h3 : vget colors (cursor + 1) with
        | error e => rw [h3] at this; cases this
        | ok c =>
          have hlt : cursor + 1 < g.length := by
            rw [← hc]
            by_contra hge
            rw [vget_of_ge (by omega)] at h3
            cases h3
          rw [h3, res_bind_ok] at this
          split at this
          · cases this; exact ⟨hc, trivial⟩
          · rw [if_pos (by omega)] at this
            cases h4 : vset colors (cursor + 1) .grey with
            | error e => rw [h4] at this; cases this
            | ok c1 =>
              rw [h4, res_bind_ok] at this
              cases h5 : vget g (cursor + 1) with
              | error e => rw [h5] at this; cases this
              | ok row =>
                rw [h5, res_bind_ok] at this
                cases this
                exact ⟨by dsimp only; rw [vset_length h4, hc], by simp⟩
    · unfold start at hst
      cases h3 : vset (List.replicate g.length Color.white) seed .grey with
      | error e => rw [h3] at hst; cases hst
      | ok c1 =>
        rw [h3, res_bind_ok] at hst
        cases h4 : vget g seed with
        | error e => rw [h4] at hst; cases hst
        | ok row => rw [h4, res_bind_ok] at hst; cases hst; exact ⟨by dsimp only; rw [vset_length h3]; simp, by simp⟩
  rcases h2 with ⟨r, -, hb⟩ | ⟨f, e, -⟩
  · obtain ⟨mode, q, colors, cursor, o⟩ := s
    cases mode with
    | visit v rest =>
      cases rest with
      | nil => cases hb
      | cons x rest => exact step_ok_inr hb
    | head =>
      cases q with
      | nil => exact absurd rfl hI.2
      | cons x q => cases hb
    | pop => exact step_ok_inr hb
    | search => exact step_ok_inr hb
  · cases e

/-- C56: from a seed without out-edges the loop runs forever (and delivers the seed again and again). -/
theorem dfs_range_sink_loops (g : Rows α) (seed : Nat) (hs : seed < g.length) (hsink : g[seed] = []) :
    ∃ st, start g seed = .ok st ∧ (∀ o, ¬ Loop (step g) st o) ∧ ∀ n, ∃ s, During (step g) st s ∧ s.out = List.replicate n seed := by
  have hset : vset (List.replicate g.length Color.white) seed .grey = .ok ((List.replicate g.length Color.white).set seed .grey) := vset_of_lt (by simpa using hs)
  set colors := (List.replicate g.length Color.white).set seed Color.grey with hcol
  have hcs : vget colors seed = .ok .grey := by
    unfold vget; rw [hcol, List.getElem?_set_self (by simpa using hs)]
  have hst : start g seed = .ok { mode := .visit seed [], q := [seed], colors := colors, cursor := 0, out := [] } := by
    unfold start
    rw [hset, res_bind_ok, vget_of_lt hs, res_bind_ok, hsink]; rfl
  have hround : ∀ out, During (step g) { mode := .visit seed [], q := [seed], colors := colors, cursor := 0, out := out }
      { mode := .visit seed [], q := [seed], colors := colors, cursor := 0, out := out ++ [seed] } := by
    intro out
    refine .head (s' := { mode := .head, q := [seed], colors := colors, cursor := 0, out := out }) rfl (.head (s' := { mode := .pop, q := [seed], colors := colors, cursor := 0, out := out ++ [seed] }) rfl
      (.head (s' := { mode := .visit seed [], q := [seed], colors := colors, cursor := 0, out := out ++ [seed] }) ?_ (.refl _)))
    show (Sum.inl <$> popStep g _ : Res _) = _
    unfold popStep
    dsimp only
    rw [hcs, res_bind_ok, if_neg (by decide), vget_of_lt hs, res_bind_ok, hsink]; rfl
  refine ⟨_, hst, ?_, ?_⟩
  · intro o hl
    obtain ⟨s, h1, h2⟩ := During.of_loop hl
    have hI : s.colors = colors ∧ s.q = [seed] ∧ (s.mode = .visit seed [] ∨ s.mode = .head ∨ s.mode = .pop) := by
      refine Steps.inv (fun s : St α => s.colors = colors ∧ s.q = [seed] ∧ (s.mode = .visit seed [] ∨ s.mode = .head ∨ s.mode = .pop)) ?_ ⟨rfl, rfl, Or.inl rfl⟩ h1
      rintro ⟨mode, q, c, cursor, o⟩ s' ⟨hc, hq, hm⟩ hs'
      dsimp only at hc hq hm
      subst hc hq
      rcases hm with rfl | rfl | rfl
      · cases hs'; exact ⟨rfl, rfl, Or.inr (Or.inl rfl)⟩
      · cases hs'; exact ⟨rfl, rfl, Or.inr (Or.inr rfl)⟩
      · have := step_ok_inl hs'
        unfold popStep at this
        dsimp only at this
        rw [hcs, res_bind_ok, if_neg (by decide), vget_of_lt hs, res_bind_ok, hsink] at this
        cases this
        exact ⟨rfl, rfl, Or.inl rfl⟩
    obtain ⟨mode, q, c, cursor, o'⟩ := s
    obtain ⟨hc, hq, hm⟩ := hI
    dsimp only at hc hq hm
    subst hc hq
    have : ∃ s', step g { mode := mode, q := [seed], colors := colors, cursor := cursor, out := o' } = .ok (.inl s') := by
      rcases hm with rfl | rfl | rfl
      · exact ⟨_, rfl⟩
      · exact ⟨_, rfl⟩
      · refine ⟨{ mode := .visit seed [], q := [seed], colors := colors, cursor := cursor, out := o' }, ?_⟩
        show (Sum.inl <$> popStep g _ : Res _) = _
        unfold popStep
        dsimp only
        rw [hcs, res_bind_ok, if_neg (by decide), vget_of_lt hs, res_bind_ok, hsink]; rfl
    obtain ⟨s', hs'⟩ := this
    rcases h2 with ⟨r, -, hb⟩ | ⟨f, -, hb⟩ <;> rw [hs'] at hb <;> cases hb
  · intro n
    have key : ∀ n, During (step g) { mode := .visit seed [], q := [seed], colors := colors, cursor := 0, out := [] }
        { mode := .visit seed [], q := [seed], colors := colors, cursor := 0, out := List.replicate n seed } := by
      intro n
      induction n with
      | zero => exact .refl _
      | succ n ih =>
        have := hround (List.replicate n seed)
        rw [← List.replicate_succ'] at this
        exact ih.trans this
    exact ⟨_, key n, rfl⟩

/-- Facts that hold at all times; `D` are the finished vertices, `ex` is the vertex being scanned. -/
structure Base (g : Rows α) (seed : Nat) (st : St α) (D : List Nat) (ex : Nat → Prop) : Prop where
  clen : st.colors.length = g.length
  seedlt : seed < g.length
  curs : ∀ w, 0 < w → w ≤ st.cursor → w < g.length ∧ st.colors[w]? ≠ some .white
  seedc : st.colors[seed]? ≠ some .white
  zero : st.colors[0]? ≠ some .white → seed = 0 ∨ ∃ u, u ≠ 0 ∧ Edge g u 0
  nodup : D.Nodup
  dlt : ∀ w ∈ D, w < g.length
  dblack : ∀ w ∈ D, st.colors[w]? = some .black
  closed : ∀ w ∈ D, ∀ y, Edge g w y → st.colors[y]? ≠ some .white
  qlt : ∀ w ∈ st.q, w < g.length
  qnw : ∀ w ∈ st.q, st.colors[w]? ≠ some .white
  other : ∀ w, w < g.length → w ∉ D → ¬ ex w → st.colors[w]? = some .white ∨ (st.colors[w]? = some .grey ∧ w ∈ st.q ∧ ∃ y, Edge g w y)

theorem Base.len_le {g : Rows α} {seed : Nat} {st : St α} {D : List Nat} {ex : Nat → Prop} (h : Base g seed st D ex) : D.length ≤ g.length := by
  have : D ⊆ List.range g.length := fun w hw => List.mem_range.2 (h.dlt w hw)
  simpa using (List.subperm_of_subset h.nodup this).length_le

def row (g : Rows α) (v : Nat) : List (Nat × α) := g.getD v []

theorem edge_iff {g : Rows α} {u v : Nat} : Edge g u v ↔ ∃ x ∈ row g u, x.1 = v := by
  unfold Edge nbrs row; simp

theorem vget_row {g : Rows α} {v : Nat} (h : v < g.length) : vget g v = .ok (row g v) := by
  unfold row; rw [vget_of_lt h, List.getD_eq_getElem?_getD, List.getElem?_eq_getElem h]; rfl

/-- The invariant of the whole loop. -/
def Inv (g : Rows α) (seed : Nat) (st : St α) : Prop :=
  match st.mode with
  | .visit v rest => Base g seed st st.out (· = v) ∧ v < g.length ∧ v ∉ st.out ∧ (∃ tl, st.q = v :: tl) ∧
      (st.colors[v]? = some .black ∨ (st.colors[v]? = some .grey ∧ rest = row g v ∧ rest ≠ [])) ∧
      ∃ pre, row g v = pre ++ rest ∧ ∀ y ∈ pre, st.colors[y.1]? ≠ some .white
  | .head => ∃ v tl, st.q = v :: tl ∧ Base g seed st (st.out ++ [v]) (fun _ => False)
  | .pop => Base g seed st st.out (fun _ => False)
  | .search => st.q = [] ∧ Base g seed st st.out (fun _ => False)

/-- The measure. -/
def meas (g : Rows α) (st : St α) : Nat × Nat × Nat × Nat :=
  (g.length - st.out.length,
    match st.mode with
    | .visit _ rest => (1, st.colors.count .white, rest.length)
    | .head => (0, 0, 0)
    | .pop => (3, st.q.length, 0)
    | .search => (2, g.length - st.cursor, 0))

def lt4 : Nat × Nat × Nat × Nat → Nat × Nat × Nat × Nat → Prop := Prod.Lex (· < ·) (Prod.Lex (· < ·) (Prod.Lex (· < ·) (· < ·)))

theorem lt4_wf : WellFounded lt4 :=
  (Prod.lex Nat.lt_wfRel (Prod.lex Nat.lt_wfRel (Prod.lex Nat.lt_wfRel Nat.lt_wfRel))).wf

/-- Vertices without out-edges other than the seed are reachable from the seed. -/
def SinksReachable (g : Rows α) (seed : Nat) : Prop := ∀ v, v < g.length → (∀ w, ¬ Edge g v w) → v ≠ seed ∧ Reachable g seed v

theorem count_set_white {l : List Color} {i : Nat} {c d : Color} (h : l[i]? = some c) :
    (l.set i d).count .white = l.count .white - (if c = .white then 1 else 0) + (if d = .white then 1 else 0) := by
  obtain ⟨hi, rfl⟩ := List.getElem?_eq_some_iff.1 h
  rw [List.count_set hi]
  simp only [beq_iff_eq]

theorem closed_reach {g : Rows α} (hin : InRange g) {seed : Nat} {st : St α} (h : Base g seed st st.out (fun _ => False)) (hq : st.q = []) :
    ∀ v, Reachable g seed v → v ∈ st.out := by
  have hmem : ∀ w, w < g.length → st.colors[w]? ≠ some .white → w ∈ st.out := by
    intro w hw hc
    by_contra hn
    rcases h.other w hw hn (fun e => e) with h1 | ⟨-, h2, -⟩
    · exact hc h1
    · rw [hq] at h2; simp at h2
  rintro v ⟨d, hwk⟩
  induction hwk with
  | nil => exact hmem _ h.seedlt h.seedc
  | snoc _ he ih => exact hmem _ (hin _ _ he) (h.closed _ ih _ he)

theorem step_ok (g : Rows α) (hin : InRange g) (seed : Nat) (hsr : SinksReachable g seed) (st : St α) (hI : Inv g seed st) :
    (∃ s', step g st = .ok (.inl s') ∧ Inv g seed s' ∧ lt4 (meas g s') (meas g st)) ∨
      (step g st = .error .outOfBounds) ∧ st.mode = .search ∧ st.cursor + 1 = g.length := by
  obtain ⟨mode, q, colors, cursor, out⟩ := st
  cases mode with
  | visit v rest =>
    left
    obtain ⟨hb, hv, hvo, ⟨tl, htl⟩, hvc, pre, hpre, hpw⟩ := hI
    dsimp only at *
    cases rest with
    | nil =>
      refine ⟨_, rfl, ⟨v, tl, htl, ?_⟩, .right _ (.left _ _ (by decide))⟩
      have hblack : colors[v]? = some .black := by
        rcases hvc with h | ⟨-, -, h⟩
        · exact h
        · exact absurd rfl h
      refine { hb with nodup := ?_, dlt := ?_, dblack := ?_, closed := ?_, other := ?_ }
      · rw [List.nodup_append]
        exact ⟨hb.nodup, by simp, fun a ha b hb' e => hvo (by rw [List.mem_singleton.1 hb'] at e; exact e ▸ ha)⟩
      · intro w hw
        rcases List.mem_append.1 hw with hw | hw
        · exact hb.dlt w hw
        · rw [List.mem_singleton.1 hw]; exact hv
      · intro w hw
        rcases List.mem_append.1 hw with hw | hw
        · exact hb.dblack w hw
        · rw [List.mem_singleton.1 hw]; exact hblack
      · intro w hw y he
        rcases List.mem_append.1 hw with hw | hw
        · exact hb.closed w hw y he
        · rw [List.mem_singleton.1 hw] at he
          obtain ⟨x, hx, rfl⟩ := edge_iff.1 he
          rw [hpre, List.append_nil] at hx
          exact hpw x hx
      · intro w hw hn _
        rw [List.mem_append, List.mem_singleton] at hn
        push Not at hn
        exact hb.other w hw hn.1 hn.2
    | cons x rest =>
      have hmem : x ∈ row g v := by rw [hpre]; simp
      have hedge : Edge g v x.1 := edge_iff.2 ⟨x, hmem, rfl⟩
      have hx : x.1 < g.length := hin _ _ hedge
      have hvnw : colors[v]? ≠ some .white := by rcases hvc with h | ⟨h, -⟩ <;> rw [h] <;> decide
      obtain ⟨cv, hcv⟩ : ∃ c, colors[v]? = some c := ⟨_, List.getElem?_eq_getElem (by rw [hb.clen]; exact hv)⟩
      have hcvw : cv ≠ .white := fun e => hvnw (by rw [hcv, e])
      obtain ⟨c, hc⟩ : ∃ c, colors[x.1]? = some c := ⟨_, List.getElem?_eq_getElem (by rw [hb.clen]; exact hx)⟩
      have hgc : vget colors x.1 = .ok c := by unfold vget; rw [hc]
      have hvl : v < colors.length := by rw [hb.clen]; exact hv
      have hxl : x.1 < colors.length := by rw [hb.clen]; exact hx
      by_cases hw : c = .white
      · subst hw
        have hxv : v ≠ x.1 := fun e => hvnw (by rw [e]; exact hc)
        have hcol : ∀ w : Nat, ((colors.set v .grey).set x.1 .black)[w]? = if x.1 = w then some .black else if v = w then some Color.grey else colors[w]? := by
          intro w
          by_cases h1 : x.1 = w
          · subst h1; rw [List.getElem?_set_self (by simpa using hxl), if_pos rfl]
          · rw [List.getElem?_set_ne h1, if_neg h1]
            by_cases h2 : v = w
            · subst h2; rw [List.getElem?_set_self hvl, if_pos rfl]
            · rw [List.getElem?_set_ne h2, if_neg h2]
        have hmono : ∀ w : Nat, colors[w]? ≠ some .white → ((colors.set v .grey).set x.1 .black)[w]? ≠ some .white := by
          intro w hw
          rw [hcol]
          split
          · decide
          · split
            · decide
            · exact hw
        have hxo : x.1 ∉ out := fun hm => by have := hb.dblack _ hm; rw [hc] at this; cases this
        refine ⟨{ mode := .visit x.1 (row g x.1), q := x.1 :: v :: q, colors := (colors.set v .grey).set x.1 .black, cursor := cursor, out := out }, ?_, ?_, ?_⟩
        · show (Sum.inl <$> visitStep g _ _ _ _ : Res _) = _
          unfold visitStep
          dsimp only
          rw [hgc, res_bind_ok, if_pos rfl, vset_of_lt hvl, res_bind_ok, vget_row hx, res_bind_ok, vset_of_lt (by simpa using hxl)]; rfl
        · refine ⟨⟨by simp [hb.clen], hb.seedlt, fun w h1 h2 => ⟨(hb.curs w h1 h2).1, hmono w (hb.curs w h1 h2).2⟩, hmono _ hb.seedc, ?_, hb.nodup, hb.dlt, ?_, ?_, ?_, ?_, ?_⟩, hx, hxo, ⟨_, rfl⟩, Or.inl ?_, [], rfl, by simp⟩
          · intro h0
            by_cases hz : colors[0]? = some .white
            · rw [hcol] at h0
              by_cases hx0 : x.1 = 0
              · exact Or.inr ⟨v, fun e => hvnw (by rw [e]; exact hz), hx0 ▸ hedge⟩
              · rw [if_neg hx0] at h0
                by_cases hv0 : v = 0
                · exact absurd (by rw [hv0]; exact hz) hvnw
                · rw [if_neg hv0] at h0; exact absurd hz h0
            · exact hb.zero hz
          · intro w hw
            dsimp only at hw ⊢
            rw [hcol, if_neg (show ¬ x.1 = w from fun e => hxo (e ▸ hw)), if_neg (show ¬ v = w from fun e => hvo (e ▸ hw))]
            exact hb.dblack w hw
          · exact fun w hw y he => hmono y (hb.closed w hw y he)
          · intro w hw
            dsimp only at hw
            rcases List.mem_cons.1 hw with rfl | hw
            · exact hx
            · rcases List.mem_cons.1 hw with rfl | hw
              · exact hv
              · exact hb.qlt w hw
          · intro w hw
            dsimp only at hw ⊢
            rcases List.mem_cons.1 hw with rfl | hw
            · rw [hcol, if_pos rfl]; decide
            · rcases List.mem_cons.1 hw with rfl | hw
              · exact hmono _ hvnw
              · exact hmono _ (hb.qnw w hw)
          · intro w hw hn hne
            dsimp only at hn hne ⊢
            rw [hcol, if_neg fun e => hne e.symm]
            by_cases hwv : v = w
            · subst hwv
              rw [if_pos rfl]
              exact Or.inr ⟨rfl, by simp, _, hedge⟩
            · rw [if_neg hwv]
              rcases hb.other w hw hn fun e => hwv e.symm with h | ⟨h1, h2, h3⟩
              · exact Or.inl h
              · exact Or.inr ⟨h1, List.mem_cons_of_mem _ (List.mem_cons_of_mem _ h2), h3⟩
          · rw [hcol, if_pos rfl]
        · refine .right _ (.right _ (.left _ _ ?_))
          dsimp only
          have h1 : (colors.set v Color.grey)[x.1]? = some .white := by rw [List.getElem?_set_ne hxv]; exact hc
          rw [count_set_white h1, count_set_white hcv, if_pos rfl, if_neg hcvw, if_neg (by decide), if_neg (by decide)]
          have : 0 < colors.count Color.white := List.count_pos_iff.2 (List.mem_of_getElem? hc)
          omega
      · have hcol : ∀ w : Nat, (colors.set v Color.black)[w]? = if v = w then some Color.black else colors[w]? := by
          intro w
          by_cases h2 : v = w
          · subst h2; rw [List.getElem?_set_self hvl, if_pos rfl]
          · rw [List.getElem?_set_ne h2, if_neg h2]
        have hmono : ∀ w : Nat, colors[w]? ≠ some .white → (colors.set v Color.black)[w]? ≠ some .white := by
          intro w hw
          rw [hcol]
          split
          · decide
          · exact hw
        refine ⟨{ mode := .visit v rest, q := v :: q, colors := colors.set v .black, cursor := cursor, out := out }, ?_, ?_, ?_⟩
        · show (Sum.inl <$> visitStep g _ _ _ _ : Res _) = _
          unfold visitStep
          dsimp only
          rw [hgc, res_bind_ok, if_neg hw, vset_of_lt hvl]; rfl
        · refine ⟨⟨by simp [hb.clen], hb.seedlt, fun w h1 h2 => ⟨(hb.curs w h1 h2).1, hmono w (hb.curs w h1 h2).2⟩, hmono _ hb.seedc, ?_, hb.nodup, hb.dlt, ?_, ?_, ?_, ?_, ?_⟩, hv, hvo, ⟨_, rfl⟩, Or.inl ?_, pre ++ [x], by rw [hpre]; simp, ?_⟩
          · intro h0
            apply hb.zero
            intro hz
            dsimp only at h0
            rw [hcol] at h0
            by_cases hv0 : v = 0
            · exact hvnw (by rw [hv0]; exact hz)
            · rw [if_neg hv0] at h0; exact h0 hz
          · intro w hw
            dsimp only at hw ⊢
            rw [hcol, if_neg (show ¬ v = w from fun e => hvo (e ▸ hw))]
            exact hb.dblack w hw
          · exact fun w hw y he => hmono y (hb.closed w hw y he)
          · intro w hw
            dsimp only at hw
            rcases List.mem_cons.1 hw with rfl | hw
            · exact hv
            · exact hb.qlt w hw
          · intro w hw
            dsimp only at hw ⊢
            rcases List.mem_cons.1 hw with rfl | hw
            · exact hmono _ hvnw
            · exact hmono _ (hb.qnw w hw)
          · intro w hw hn hne
            dsimp only at hn hne ⊢
            rw [hcol, if_neg fun e => hne e.symm]
            rcases hb.other w hw hn hne with h | ⟨h1, h2, h3⟩
            · exact Or.inl h
            · exact Or.inr ⟨h1, List.mem_cons_of_mem _ h2, h3⟩
          · rw [hcol, if_pos rfl]
          · intro y hy
            rcases List.mem_append.1 hy with hy | hy
            · exact hmono _ (hpw y hy)
            · rw [List.mem_singleton.1 hy]
              exact hmono _ (by rw [hc]; exact fun e => hw (Option.some.inj e))
        · refine .right _ (.right _ ?_)
          dsimp only
          rw [count_set_white hcv, if_neg hcvw, if_neg (by decide)]
          exact .right _ (by simp)
  | head =>
    left
    obtain ⟨v, tl, htl, hb⟩ := hI
    dsimp only at htl
    subst htl
    refine ⟨_, rfl, ?_, .left _ _ ?_⟩
    · exact { hb with }
    · have := hb.len_le
      dsimp only at this ⊢
      simp only [List.length_append, List.length_singleton] at this ⊢
      omega
  | pop =>
    left
    have hb : Base g seed _ out (fun _ => False) := hI
    cases q with
    | nil => exact ⟨_, rfl, ⟨rfl, { hb with }⟩, .right _ (.left _ _ (by decide))⟩
    | cons x q =>
      have hx : x < g.length := hb.qlt x (by simp)
      have hxl : x < colors.length := by rw [hb.clen]; exact hx
      by_cases hc : colors[x] = .black
      · refine ⟨{ mode := .pop, q := q, colors := colors, cursor := cursor, out := out }, ?_, ?_, ?_⟩
        · show (Sum.inl <$> popStep g _ : Res _) = _
          unfold popStep
          dsimp only
          rw [vget_of_lt hxl, res_bind_ok, if_pos hc]; rfl
        · refine { hb with qlt := fun w hw => hb.qlt w (List.mem_cons_of_mem _ hw), qnw := fun w hw => hb.qnw w (List.mem_cons_of_mem _ hw), other := ?_ }
          intro w hw hn he
          rcases hb.other w hw hn he with h | ⟨h1, h2, h3⟩
          · exact Or.inl h
          · refine Or.inr ⟨h1, ?_, h3⟩
            rcases List.mem_cons.1 h2 with rfl | h2
            · rw [List.getElem?_eq_getElem hxl, hc] at h1; cases h1
            · exact h2
        · exact .right _ (.right _ (.left _ _ (by simp)))
      · have hxo : x ∉ out := fun hm => by
          have := hb.dblack x hm
          dsimp only at this
          rw [List.getElem?_eq_getElem hxl, Option.some.injEq] at this
          exact hc this
        refine ⟨{ mode := .visit x (row g x), q := x :: q, colors := colors, cursor := cursor, out := out }, ?_, ?_, .right _ (.left _ _ (by show 1 < 3; decide))⟩
        · show (Sum.inl <$> popStep g _ : Res _) = _
          unfold popStep
          dsimp only
          rw [vget_of_lt hxl, res_bind_ok, if_neg hc, vget_row hx]; rfl
        · obtain ⟨hgrey, y, hy⟩ : colors[x]? = some .grey ∧ ∃ y, Edge g x y := by
            rcases hb.other x hx hxo (fun e => e) with h | ⟨h1, -, h3⟩
            · exact absurd h (hb.qnw x (by simp))
            · exact ⟨h1, h3⟩
          refine ⟨{ hb with other := fun w hw hn _ => hb.other w hw hn (fun e => e) }, hx, hxo, ⟨q, rfl⟩, Or.inr ⟨hgrey, rfl, ?_⟩, [], rfl, by simp⟩
          intro e
          obtain ⟨z, hz, -⟩ := edge_iff.1 hy
          rw [e] at hz
          simp at hz
  | search =>
    obtain ⟨hq, hb⟩ := hI
    dsimp only at hq
    subst hq
    have hcl : cursor < g.length := by
      rcases Nat.eq_zero_or_pos cursor with h | h
      · have := hb.seedlt; omega
      · exact (hb.curs cursor h (Nat.le_refl _)).1
    rcases Nat.lt_or_ge (cursor + 1) g.length with hlt | hge
    · left
      have hl : cursor + 1 < colors.length := by rw [hb.clen]; exact hlt
      by_cases hw : colors[cursor + 1] = .white
      · have hnw : colors[cursor + 1]? = some .white := by rw [List.getElem?_eq_getElem hl, hw]
        have hcol : ∀ w : Nat, (colors.set (cursor + 1) Color.grey)[w]? = if cursor + 1 = w then some Color.grey else colors[w]? := by
          intro w
          by_cases h2 : cursor + 1 = w
          · subst h2; rw [List.getElem?_set_self hl, if_pos rfl]
          · rw [List.getElem?_set_ne h2, if_neg h2]
        have hmono : ∀ w : Nat, colors[w]? ≠ some .white → (colors.set (cursor + 1) Color.grey)[w]? ≠ some .white := by
          intro w hw
          rw [hcol]
          split
          · decide
          · exact hw
        have hco : cursor + 1 ∉ out := fun hm => by have := hb.dblack _ hm; dsimp only at this; rw [hnw] at this; cases this
        have hrow : row g (cursor + 1) ≠ [] := by
          intro e
          have := hsr (cursor + 1) hlt fun w he => by
            obtain ⟨z, hz, -⟩ := edge_iff.1 he
            rw [e] at hz
            simp at hz
          exact hco (closed_reach hin hb rfl _ this.2)
        refine ⟨{ mode := .visit (cursor + 1) (row g (cursor + 1)), q := [cursor + 1], colors := colors.set (cursor + 1) .grey, cursor := cursor + 1, out := out }, ?_, ?_, .right _ (.left _ _ (by show 1 < 2; decide))⟩
        · show (Sum.inl <$> searchStep g _ : Res _) = _
          unfold searchStep
          dsimp only
          rw [vget_of_lt hl, res_bind_ok, if_neg (fun e => e.1 hw), if_pos (by omega), vset_of_lt hl, res_bind_ok, vget_row hlt]; rfl
        · refine ⟨⟨by simp [hb.clen], hb.seedlt, ?_, hmono _ hb.seedc, ?_, hb.nodup, hb.dlt, ?_, ?_, ?_, ?_, ?_⟩, hlt, hco, ⟨[], rfl⟩, Or.inr ⟨?_, rfl, hrow⟩, [], rfl, by simp⟩
          · intro w h1 h2
            dsimp only at h2 ⊢
            rcases Nat.lt_or_ge cursor w with h3 | h3
            · have : w = cursor + 1 := by omega
              subst this
              exact ⟨hlt, by rw [hcol, if_pos rfl]; decide⟩
            · exact ⟨(hb.curs w h1 h3).1, hmono _ (hb.curs w h1 h3).2⟩
          · intro h0
            apply hb.zero
            dsimp only at h0 ⊢
            rw [hcol, if_neg (by omega)] at h0
            exact h0
          · intro w hw
            dsimp only at hw ⊢
            rw [hcol, if_neg (show ¬ cursor + 1 = w from fun e => hco (e ▸ hw))]
            exact hb.dblack w hw
          · exact fun w hw y he => hmono y (hb.closed w hw y he)
          · intro w hw
            rw [List.mem_singleton.1 hw]; exact hlt
          · intro w hw
            rw [List.mem_singleton.1 hw]
            dsimp only
            rw [hcol, if_pos rfl]; decide
          · intro w hw hn hne
            dsimp only at hn hne ⊢
            rw [hcol, if_neg fun e => hne e.symm]
            rcases hb.other w hw hn (fun e => e) with h | ⟨-, h2, -⟩
            · exact Or.inl h
            · simp at h2
          · rw [hcol, if_pos rfl]
      · refine ⟨{ mode := .search, q := [], colors := colors, cursor := cursor + 1, out := out }, ?_, ?_, .right _ (.right _ (.left _ _ (by dsimp only; omega)))⟩
        · show (Sum.inl <$> searchStep g _ : Res _) = _
          unfold searchStep
          dsimp only
          rw [vget_of_lt hl, res_bind_ok, if_pos ⟨hw, by omega⟩]; rfl
        · refine ⟨rfl, { hb with curs := ?_ }⟩
          intro w h1 h2
          dsimp only at h2 ⊢
          rcases Nat.lt_or_ge cursor w with h3 | h3
          · have : w = cursor + 1 := by omega
            subst this
            exact ⟨hlt, by rw [List.getElem?_eq_getElem hl]; exact fun e => hw (Option.some.inj e)⟩
          · exact hb.curs w h1 h3
    · right
      refine ⟨?_, rfl, by dsimp only; omega⟩
      show (Sum.inl <$> searchStep g _ : Res _) = _
      unfold searchStep
      dsimp only
      rw [vget_of_ge (by rw [hb.clen]; omega)]; rfl

/-- C56 (what holds).  Missing: the loop does not stop but reads a colour out of bounds, and sinks must be reachable from the seed.  If all vertices without out-edges are
reachable from the seed (and the seed is none of them), then up to that moment each vertex has been delivered at most once, all vertices but 0 have been delivered, and 0 has
been unless it is neither the seed nor a neighbour of another vertex. -/
theorem dfs_range_partial (g : Rows α) (hin : InRange g) (seed : Nat) (hs : seed < g.length) (hsr : SinksReachable g seed) :
    ∃ st s, start g seed = .ok st ∧ During (step g) st s ∧ step g s = .error .outOfBounds ∧ Loop (step g) st (.error .outOfBounds) ∧ s.out.Nodup ∧
      ∀ v, v < g.length → (v ∈ s.out ↔ v ≠ 0 ∨ seed = 0 ∨ ∃ u, u ≠ 0 ∧ Edge g u 0) := by
  have hset : vset (List.replicate g.length Color.white) seed .grey = .ok ((List.replicate g.length Color.white).set seed .grey) := vset_of_lt (by simpa using hs)
  have hst : start g seed = .ok { mode := .visit seed (row g seed), q := [seed], colors := (List.replicate g.length Color.white).set seed .grey, cursor := 0, out := [] } := by
    unfold start
    rw [hset, res_bind_ok, vget_row hs]; rfl
  have hcol : ∀ w, w < g.length → ((List.replicate g.length Color.white).set seed Color.grey)[w]? = if seed = w then some Color.grey else some Color.white := by
    intro w hw
    by_cases h : seed = w
    · subst h; rw [List.getElem?_set_self (by simpa using hs), if_pos rfl]
    · rw [List.getElem?_set_ne h, if_neg h, List.getElem?_replicate, if_pos hw]
  have hI0 : Inv g seed { mode := .visit seed (row g seed), q := [seed], colors := (List.replicate g.length Color.white).set seed .grey, cursor := 0, out := [] } := by
    refine ⟨⟨by simp, hs, fun w h1 h2 => absurd h2 (by dsimp only; omega), ?_, ?_, by simp, by simp, by simp, by simp, by simp [hs], ?_, ?_⟩, hs, by simp, ⟨[], rfl⟩, Or.inr ⟨?_, rfl, ?_⟩, [], rfl, by simp⟩
    · dsimp only; rw [hcol seed hs, if_pos rfl]; decide
    · intro h0
      dsimp only at h0
      rw [hcol 0 (by omega)] at h0
      by_cases h : seed = 0
      · exact Or.inl h
      · rw [if_neg h] at h0; exact absurd rfl h0
    · intro w hw
      rw [List.mem_singleton.1 hw]
      dsimp only; rw [hcol seed hs, if_pos rfl]; decide
    · intro w hw _ hne
      left
      dsimp only at hne ⊢
      rw [hcol w hw, if_neg fun e => hne e.symm]
    · dsimp only; rw [hcol seed hs, if_pos rfl]
    · intro e
      exact (hsr seed hs fun w he => by
        obtain ⟨z, hz, -⟩ := edge_iff.1 he
        rw [e] at hz
        simp at hz).1 rfl
  obtain ⟨s, h1, h2, h3⟩ := During.to_fault (body := step g) (f := .outOfBounds) (Inv g seed) (meas g) lt4_wf
    (fun s hI => by
      rcases step_ok g hin seed hsr s hI with h | ⟨h, -⟩
      · exact Or.inl h
      · exact Or.inr h) _ hI0
  refine ⟨_, s, hst, h1, h3, h1.loop (.fault h3), ?_⟩
  rcases step_ok g hin seed hsr s h2 with ⟨s', h4, -⟩ | ⟨-, h4, h5⟩
  · rw [h3] at h4; cases h4
  · obtain ⟨mode, q, colors, cursor, out⟩ := s
    dsimp only at h4 h5
    subst h4
    obtain ⟨hq, hb⟩ := h2
    dsimp only at hq
    subst hq
    refine ⟨hb.nodup, ?_⟩
    have hmem : ∀ w, w < g.length → colors[w]? ≠ some .white → w ∈ out := by
      intro w hw hc
      by_contra hn
      rcases hb.other w hw hn (fun e => e) with h1 | ⟨-, h2, -⟩
      · exact hc h1
      · simp at h2
    intro v hv
    dsimp only
    constructor
    · intro hm
      by_cases hv0 : v = 0
      · subst hv0
        right
        apply hb.zero
        rw [hb.dblack 0 hm]
        decide
      · exact Or.inl hv0
    · have hpos : ∀ w, w ≠ 0 → w < g.length → w ∈ out := fun w h0 hw => hmem w hw (hb.curs w (by omega) (by dsimp only; omega)).2
      by_cases hv0 : v = 0
      · subst hv0
        rintro (h | h | ⟨u, hu, he⟩)
        · exact absurd rfl h
        · exact hmem 0 hv (by have := hb.seedc; rw [h] at this; exact this)
        · exact hmem 0 hv (hb.closed u (hpos u hu he.src_lt) 0 he)
      · exact fun _ => hpos v hv0 hv

/-- 0 → 1, 2; 1 → 3; 2 → 3; 3 is a sink: delivered 3, 1, 2, 0. -/
def exG : Rows Unit := [[(1, ()), (2, ())], [(3, ())], [(3, ())], []]

example : InRange exG ∧ SinksReachable exG 0 := by
  refine ⟨by decide, fun v hv hs => ?_⟩
  rcases v with _ | _ | _ | _ | v
  · exact absurd (by unfold Edge; decide) (hs 1)
  · exact absurd (by unfold Edge; decide) (hs 3)
  · exact absurd (by unfold Edge; decide) (hs 3)
  · exact ⟨by decide, 2, .snoc (v := 1) (.snoc (v := 0) .nil (by unfold Edge; decide)) (by unfold Edge; decide)⟩
  · exact absurd hv (by show ¬ v + 1 + 1 + 1 + 1 < 4; omega)

example : ∃ st, start exG 0 = .ok st ∧ ∃ s, During (step exG) st s ∧ s.out = [3, 1, 2, 0] :=
  ⟨_, rfl, _, .head rfl (.head rfl (.head rfl (.head rfl (.head rfl (.head rfl (.head rfl (.head rfl (.head rfl (.head rfl (.head rfl (.head rfl (.head rfl (.head rfl
    (.head rfl (.head rfl (.head rfl (.head rfl (.head rfl (.head rfl (.head rfl (.head rfl (.head rfl (.head rfl (.head rfl (.head rfl (.refl _)))))))))))))))))))))))))), rfl⟩

end NW.DfsRange
