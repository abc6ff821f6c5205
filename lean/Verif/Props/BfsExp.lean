import Verif.Lemmas.BfsExp

/-! # C83: the experimental level-by-level searches, under every schedule -/

namespace NW.BfsExp
open Spec Bfs Dobfs

variable {α : Type}

/-- C83, `bfs_v6`: it ends without fault and returns a breadth-first search tree. -/
theorem bfs_v6_correct (inf : Nat) (g : Rows α) (hg : InRange g) (root : Nat) (hr : root < g.length) (hinf : g.length ≤ inf) :
    ∃ p, RunV6 inf g root (.ok p) ∧ p.length = g.length ∧ BfsTree g root (parentOf inf p) := bfs_correct inf g hg root hr hinf

/-- Nothing of level `l + 1` when the queue of level `l` is empty. -/
theorem Head.tree {ver : Ver} {inf : Nat} {g : Rows α} {root l : Nat} (hc : Ok inf g root) {q1 : List (List Nat)} {mark par : List Nat}
    (h : Head ver inf g root l q1 mark par) (he : q1.all List.isEmpty = true) : par.length = g.length ∧ BfsTree g root (parentOf inf par) := by
  refine Lev.tree hc h.lev ?_
  rintro ⟨v, hv⟩
  obtain ⟨w, hw⟩ := hv.down (j := l) (by omega)
  obtain ⟨q, h1, h2⟩ := List.mem_flatten.1 ((h.queue w).2 hw)
  have := List.all_eq_true.1 he q h1
  cases q with
  | nil => cases h2
  | cons _ _ => simp at this

theorem headStep_round {ver : Ver} {inf : Nat} {g : Rows α} {root l : Nat} (hc : Ok inf g root) {q1 : List (List Nat)} {mark par : List Nat}
    (h : Head ver inf g root l q1 mark par) (hq : ¬ ((ver = .v7 ∨ ver = .v8) ∧ q1.all List.isEmpty = true)) :
    ∃ ts, headStep ver g q1 mark par (l + 1) = .ok (.inl (.round ts { q2 := List.replicate ver.bins [], mark := mark, par := par } (l + 1))) ∧
      Inv ver inf g root l ts { q2 := List.replicate ver.bins [], mark := mark, par := par } ∧ ∀ t ∈ ts, t.pc = .start := by
  have hts : q1.flatten.mapM (mkTasks g) =
      .ok (q1.flatten.map fun u => (g.getD u []).map fun x => ({ u := u, v := x.1, pc := .start } : Task)) := by
    refine mapM_ok_of_forall ?_
    intro u hu
    have := ((h.queue u).1 hu).1.lt hc.inRange hc.rootLt
    unfold mkTasks
    rw [vget_row this, res_bind_ok]; rfl
  unfold headStep
  rw [if_neg hq, hts, res_bind_ok]
  have hmem : ∀ t : Task, t ∈ (q1.flatten.map fun u => (g.getD u []).map fun x => ({ u := u, v := x.1, pc := .start } : Task)).flatten ↔
      t.u ∈ q1.flatten ∧ Edge g t.u t.v ∧ t.pc = .start := by
    intro t
    rw [List.mem_flatten]
    constructor
    · rintro ⟨_, hl, ht⟩
      obtain ⟨u, hu, rfl⟩ := List.mem_map.1 hl
      obtain ⟨x, hx, rfl⟩ := List.mem_map.1 ht
      exact ⟨hu, mem_row_edge hx, rfl⟩
    · rintro ⟨h1, h2, h3⟩
      obtain ⟨x, hx, h4⟩ := List.mem_map.1 h2
      refine ⟨_, List.mem_map.2 ⟨t.u, h1, rfl⟩, List.mem_map.2 ⟨x, hx, ?_⟩⟩
      cases t; simp_all
  refine ⟨_, rfl, ⟨⟨⟨h.lev.1, ?_⟩, h.lenM, by simp, fun hv w x hw hx => Nat.le_succ_of_le (h.lv hv w x hw hx), ?_, ?_, ?_⟩, ?_, ?_, ?_⟩,
    fun t ht => ((hmem t).1 ht).2.2⟩
  · intro u pu hu
    obtain ⟨h1, h2⟩ := h.lev.2 u pu hu
    exact ⟨h1.2, fun k => ⟨near_succ.2 (Or.inl (h1.1 k)), h2 k⟩⟩
  · intro w hw
    exact near_succ.2 (Or.inl ((h.marks w).1 ((marked_q2 _ w).1 hw)))
  · intro w hw
    exact (marked_q2 (a := ⟨[], mark, par⟩) _ w).2 ((h.marks w).2 hw)
  · intro w hw
    simp at hw
  · intro t ht
    obtain ⟨h1, h2, h3⟩ := (hmem t).1 ht
    rw [h3]
    exact ⟨(h.queue _).1 h1, h2, trivial⟩
  · intro u v hu he
    exact ⟨⟨u, v, .start⟩, (hmem _).2 ⟨(h.queue u).2 hu, he, rfl⟩, rfl, rfl⟩
  · intro w hw
    exact Or.inl ((h.marks w).1 ((marked_q2 (a := ⟨[], mark, par⟩) _ w).1 hw))

theorem sure_one {ver : Ver} {inf : Nat} {g : Rows α} {Q : List Nat → Prop} {s : State} {o : Res (State ⊕ List Nat)}
    (hs : ∀ o', Step ver inf g s o' → o' = o) (hex : Step ver inf g s o)
    (h : (∃ r, o = .ok (.inr r) ∧ Q r) ∨ ∃ s', o = .ok (.inl s') ∧ Sure (Step ver inf g) Q s') : Sure (Step ver inf g) Q s := by
  refine .mk ⟨o, hex⟩ ?_ ?_ ?_
  · intro f hf
    rw [← hs _ hf] at h
    rcases h with ⟨r, h, _⟩ | ⟨s', h, _⟩ <;> cases h
  · intro r hr
    rw [← hs _ hr] at h
    rcases h with ⟨r, h, hq⟩ | ⟨s', h, _⟩ <;> cases h
    exact hq
  · intro s' hs'
    rw [← hs _ hs'] at h
    rcases h with ⟨r, h, _⟩ | ⟨s', h, hq⟩ <;> cases h
    exact hq

theorem head_sure {ver : Ver} {inf : Nat} {g : Rows α} {root : Nat} (hc : Ok inf g root) (k : Nat) : ∀ l, g.length + 1 - l = k →
    ∀ q1 mark par, Head ver inf g root l q1 mark par → (q1.all List.isEmpty = true → ver = .v7 ∨ ver = .v8) →
      Sure (Step ver inf g) (fun par => par.length = g.length ∧ BfsTree g root (parentOf inf par)) (.head q1 mark par (l + 1)) := by
  induction k using Nat.strongRecOn with
  | ind k ih =>
    intro l hk q1 mark par hH hq
    refine sure_one (fun o' ho' => by cases ho'; rfl) .head ?_
    by_cases he : (ver = .v7 ∨ ver = .v8) ∧ q1.all List.isEmpty = true
    · left
      exact ⟨par, by unfold headStep; rw [if_pos he]; rfl, hH.tree hc he.2⟩
    · right
      obtain ⟨ts, h1, h2, -⟩ := headStep_round hc hH he
      refine ⟨_, h1, round_phase hc ?_ _ _ h2⟩
      intro ts a hI hf
      have hJ := hI.joined hf
      refine sure_one (o := joinStep ver a (l + 1)) ?_ (.join hf) ?_
      · intro o' ho'
        cases ho' with
        | task hi hd => exact absurd (hf _ (List.mem_of_getElem? hi)) hd
        | join _ => rfl
      · unfold joinStep
        by_cases hj : (ver = .v9 ∨ ver = .topDown ∨ ver = .bitmap) ∧ a.q2.all List.isEmpty = true
        · left
          exact ⟨a.par, by rw [if_pos hj]; rfl, hJ.tree hc hj.2⟩
        · right
          refine ⟨_, by rw [if_neg hj]; rfl, ih (g.length + 1 - (l + 1)) ?_ (l + 1) rfl _ _ _ hJ ?_⟩
          · -- the frontier of this round was not empty
            have : ∃ v, IsDist g root v l := by
              by_cases hall : q1.all List.isEmpty = true
              · exact absurd ⟨hq hall, hall⟩ he
              · rw [Bool.not_eq_true, List.all_eq_false] at hall
                obtain ⟨q, h1, h2⟩ := hall
                cases q with
                | nil => simp at h2
                | cons v _ => exact ⟨v, (hH.queue v).1 (List.mem_flatten.2 ⟨_, h1, by simp⟩)⟩
            obtain ⟨v, hv⟩ := this
            have := hv.lt_length hc.inRange hc.rootLt
            omega
          · intro hall
            cases ver with
            | v7 => exact Or.inl rfl
            | v8 => exact Or.inr rfl
            | _ => exact absurd ⟨by simp, hall⟩ hj

theorem init_head (ver : Ver) {inf : Nat} {g : Rows α} {root : Nat} (hc : Ok inf g root) :
    ∃ q1 mark par, init ver inf g root = .ok (.head q1 mark par 1) ∧ Head ver inf g root 0 q1 mark par ∧ q1.all List.isEmpty = false ∧
      q1.flatten = [root] := by
  have hr := hc.rootLt
  have hroot : root ≠ inf := by have := hc.small; omega
  have hinf : 0 ≠ inf := by have := hc.small; omega
  have hbins : 0 < (List.replicate ver.bins ([] : List Nat)).length := by cases ver <;> simp [Ver.bins]
  have hlev : Lev (buArgs inf g g) root 0 ((List.replicate g.length inf).set root root) := by
    refine ⟨by simp [buArgs], ?_⟩
    intro u pu hu
    rcases getElem?_set_cases hu with ⟨rfl, rfl⟩ | ⟨hne, hu⟩
    · exact ⟨⟨fun _ => ⟨0, Nat.le_refl _, IsDist.zero _ _⟩, fun _ => hroot⟩, fun _ => by unfold Good; rw [if_pos rfl]⟩
    · have hu' := (List.mem_replicate.1 (List.mem_of_getElem? hu)).2
      refine ⟨⟨fun h => absurd hu' h, ?_⟩, fun h => absurd hu' h⟩
      rintro ⟨d, hd, hdist⟩
      obtain rfl : d = 0 := by omega
      exact absurd hdist.of_zero.symm hne
  have hat : ∀ d y, y ≠ d → ∀ w, NotAt d ((List.replicate g.length d).set root y) w ↔ Near g root 0 w := by
    intro d y hy w
    constructor
    · intro h
      rcases h.set_other with ⟨x, hx, hne⟩ | rfl
      · exact absurd (List.mem_replicate.1 (List.mem_of_getElem? hx)).2 hne
      · exact ⟨0, Nat.le_refl _, IsDist.zero _ _⟩
    · rintro ⟨d', hd, hdist⟩
      obtain rfl : d' = 0 := by omega
      obtain rfl := hdist.of_zero
      exact notAt_set_self hy (by simpa using hr)
  have hmark : ∃ mark, initMark ver inf g.length root = .ok mark ∧ (ver ≠ .topDown → mark.length = g.length) ∧
      (ver = .v7 → ∀ w x : Nat, mark[w]? = some x → x ≠ inf → x ≤ 0) ∧
      ∀ w, Marked ver inf { q2 := [], mark := mark, par := (List.replicate g.length inf).set root root } w ↔ Near g root 0 w := by
    have hlv : ∀ w x : Nat, ((List.replicate g.length inf).set root 0)[w]? = some x → x ≠ inf → x ≤ 0 := by
      intro w x hw hx
      rcases getElem?_set_cases hw with ⟨-, rfl⟩ | ⟨-, hw⟩
      · exact Nat.le_refl _
      · exact absurd (List.mem_replicate.1 (List.mem_of_getElem? hw)).2 hx
    cases ver with
    | topDown => exact ⟨[], rfl, fun h => absurd rfl h, (fun h => by cases h), hat inf root hroot⟩
    | bitmap => exact ⟨_, vset_of_lt (by simpa using hr), fun _ => by simp, (fun h => by cases h), hat 0 1 (by decide)⟩
    | v7 => exact ⟨_, vset_of_lt (by simpa using hr), fun _ => by simp, fun _ => hlv, hat inf 0 hinf⟩
    | v8 => exact ⟨_, vset_of_lt (by simpa using hr), fun _ => by simp, (fun h => by cases h), hat inf 0 hinf⟩
    | v9 => exact ⟨_, vset_of_lt (by simpa using hr), fun _ => by simp, (fun h => by cases h), hat inf 0 hinf⟩
  obtain ⟨mark, h1, h2, h3, h4⟩ := hmark
  have hfl : ((List.replicate ver.bins ([] : List Nat)).set 0 [root]).flatten = [root] := by cases ver <;> simp [Ver.bins, List.replicate]
  refine ⟨(List.replicate ver.bins []).set 0 [root], mark, (List.replicate g.length inf).set root root, ?_, ⟨hlev, h2, h3, h4, ?_⟩, ?_, hfl⟩
  · unfold init
    rw [h1, res_bind_ok, vset_of_lt (by simpa using hr), res_bind_ok, vset_of_lt hbins, res_bind_ok]; rfl
  · intro v
    rw [hfl, List.mem_singleton]
    constructor
    · rintro rfl; exact IsDist.zero _ _
    · intro h; exact h.of_zero
  · rw [List.all_eq_false]
    exact ⟨[root], List.mem_of_getElem? (getElem?_set_same (List.getElem?_eq_getElem hbins)), by simp⟩

/-- C83. For every graph with in-range neighbours, every root, and every interleaving of the reads, claims and writes of a round, `bfs_v7`, `bfs_v8`,
`bfs_v9`, `bfs_top_down` and `bfs_top_down_bitmap` end without reading or writing outside their arrays and bins, and return a breadth-first search tree: a vertex
has a parent exactly when it is reachable, and every parent link is an edge that leads one step away from the root. -/
theorem bfs_levels_correct (ver : Ver) (inf : Nat) (g : Rows α) (hg : InRange g) (root : Nat) (hr : root < g.length) (hinf : g.length ≤ inf) :
    ∃ s, init ver inf g root = .ok s ∧ Sure (Step ver inf g) (fun par => par.length = g.length ∧ BfsTree g root (parentOf inf par)) s := by
  have hc : Ok inf g root := ⟨hg, hr, hinf⟩
  obtain ⟨q1, mark, par, h1, h2, h3, -⟩ := init_head ver hc
  exact ⟨_, h1, head_sure hc _ 0 rfl q1 mark par h2 (fun h => by rw [h3] at h; cases h)⟩

/-! ## How often a vertex is expanded -/

/-- In the versions with a claim, every vertex has one claimant at most. -/
structure Uniq (ver : Ver) (inf : Nat) (ts : List Task) (a : Arrays) : Prop where
  one : ∀ (i j : Nat) (t s : Task) (as bs : List Act), ts[i]? = some t → ts[j]? = some s → t.pc = .todo as → s.pc = .todo bs → t.v = s.v → i = j
  nodup : a.q2.flatten.Nodup
  marked : ∀ w ∈ a.q2.flatten, Marked ver inf a w
  push : ∀ t ∈ ts, ∀ as, t.pc = .todo as → as.Nodup ∧ (.push ∈ as → t.v ∉ a.q2.flatten)

theorem nodup_flatten_set {q : List (List Nat)} {b : Nat} {l : List Nat} (h : q[b]? = some l) {v : Nat} (hv : v ∉ q.flatten) (hq : q.flatten.Nodup) :
    (q.set b (l ++ [v])).flatten.Nodup := by
  have hb := (List.getElem?_eq_some_iff.1 h).1
  have hl := (List.getElem?_eq_some_iff.1 h).2
  have e1 : q = q.take b ++ l :: q.drop (b + 1) := by
    rw [← hl, List.getElem_cons_drop, List.take_append_drop]
  have e2 : q.set b (l ++ [v]) = q.take b ++ (l ++ [v]) :: q.drop (b + 1) := List.set_eq_take_append_cons_drop.trans (if_pos hb)
  have hp : (q.set b (l ++ [v])).flatten.Perm (v :: q.flatten) := by
    rw [e2, congrArg List.flatten e1]
    simp only [List.flatten_append, List.flatten_cons]
    have := List.perm_middle (a := v) (l₁ := (q.take b).flatten ++ l) (l₂ := (q.drop (b + 1)).flatten)
    simpa using this
  exact hp.nodup_iff.2 (List.nodup_cons.2 ⟨hv, hq⟩)

/-- The invariant of the whole run. -/
def Reach (ver : Ver) (inf : Nat) (g : Rows α) (root : Nat) : State → Prop
  | .head q1 mark par lvl => ∃ l, lvl = l + 1 ∧ Head ver inf g root l q1 mark par ∧ q1.flatten.Nodup
  | .round ts a lvl => ∃ l, lvl = l + 1 ∧ Inv ver inf g root l ts a ∧ Uniq ver inf ts a

theorem claim_shape {ver : Ver} {inf lvl : Nat} {a b : Arrays} {v old : Nat} {pc : Pc} (h : claim ver inf lvl a v old = .ok (b, pc)) :
    b.q2 = a.q2 ∧ ∀ as, pc = .todo as → as.Nodup ∧ ((ver = .v7 ∧ a.mark[v]? = some old) ∨ (ver = .bitmap ∧ a.mark[v]? = some 0)) := by
  cases ver with
  | v7 =>
    simp only [claim] at h
    cases hx : vget a.mark v with
    | error f => rw [hx] at h; cases h
    | ok x =>
      rw [hx, res_bind_ok] at h
      split at h
      · rename_i c
        cases hy : vset a.mark v (lvl % (inf + 1)) with
        | error f => rw [hy] at h; cases h
        | ok y =>
          rw [hy, res_bind_ok] at h; cases h
          exact ⟨rfl, fun as e => by cases e; exact ⟨by decide, Or.inl ⟨rfl, c ▸ vget_eq_ok.1 hx⟩⟩⟩
      · injection h with h
        injection h with h1 h2
        subst h1
        refine ⟨rfl, fun as e => ?_⟩
        rw [e] at h2
        split at h2 <;> cases h2
  | bitmap =>
    simp only [claim] at h
    cases hx : vget a.mark v with
    | error f => rw [hx] at h; cases h
    | ok x =>
      rw [hx, res_bind_ok] at h
      cases hy : vset a.mark v 1 with
      | error f => rw [hy] at h; cases h
      | ok y =>
        rw [hy, res_bind_ok] at h
        injection h with h
        injection h with h1 h2
        subst h1
        refine ⟨rfl, fun as e => ?_⟩
        rw [e] at h2
        split at h2
        · rename_i c
          cases h2
          exact ⟨by decide, Or.inr ⟨rfl, c ▸ vget_eq_ok.1 hx⟩⟩
        · cases h2
  | _ => cases h; exact ⟨rfl, fun as e => by cases e⟩

theorem act_shape {ver : Ver} {inf lvl : Nat} {a b : Arrays} {u v : Nat} {x : Act} (h : act ver inf lvl a u v x = .ok b) :
    (x ≠ .push → b.q2 = a.q2) ∧ (x = .push → ∃ (n : Nat) (l : List Nat), a.q2[n]? = some l ∧ b.q2 = a.q2.set n (l ++ [v])) := by
  cases x with
  | push =>
    refine ⟨fun h => absurd rfl h, fun _ => ?_⟩
    simp only [act] at h
    cases hx : vget a.q2 (ver.bin u) with
    | error f => rw [hx] at h; cases h
    | ok l =>
      rw [hx, res_bind_ok] at h
      have hb := vget_eq_ok.1 hx
      rw [vset_of_lt (List.getElem?_eq_some_iff.1 hb).1, res_bind_ok] at h
      cases h
      exact ⟨_, l, hb, rfl⟩
  | mark =>
    refine ⟨fun _ => ?_, fun h => by cases h⟩
    simp only [act] at h
    cases hx : vset a.mark v (lvl % (inf + 1)) with
    | error f => rw [hx] at h; cases h
    | ok l => rw [hx, res_bind_ok] at h; cases h; rfl
  | par =>
    refine ⟨fun _ => ?_, fun h => by cases h⟩
    simp only [act] at h
    cases hx : vset a.par v u with
    | error f => rw [hx] at h; cases h
    | ok l => rw [hx, res_bind_ok] at h; cases h; rfl

theorem Uniq.step {ver : Ver} {inf : Nat} {g : Rows α} {root l : Nat} (hc : Ok inf g root) (hv : ver = .v7 ∨ ver = .bitmap) {ts : List Task} {a : Arrays}
    (hI : Inv ver inf g root l ts a) (hU : Uniq ver inf ts a) {i : Nat} {t : Task} (hi : ts[i]? = some t) (hf : ¬ t.finished)
    {a' : Arrays} {t' : Task} (h : taskStep ver inf (l + 1) a t = .ok (a', t')) : Uniq ver inf (ts.set i t') a' := by
  obtain ⟨hu, he, hat⟩ := hI.task t (List.mem_of_getElem? hi)
  have hat' : ∀ s ∈ ts, ∀ as, s.pc = .todo as → Marked ver inf a s.v := by
    intro s hs as hp
    obtain ⟨-, -, h⟩ := hI.task s hs
    rw [hp] at h
    refine h.2.2.2.1.resolve_left fun hm => ?_
    have : marker ver = .mark := by rcases hv with rfl | rfl <;> rfl
    rw [this] at hm
    rcases hv with rfl | rfl <;> rcases h.2.2.2.2 hm with h | h <;> cases h
  -- a task that is not a claimant afterwards, with no change to the queue
  have keep : ∀ (pc : Pc) (b : Arrays), (∀ as, pc ≠ .todo as) → b.q2 = a.q2 → Grows ver inf a b →
      Uniq ver inf (ts.set i { t with pc := pc }) b := by
    intro pc b hpc hq hgr
    refine ⟨?_, by rw [hq]; exact hU.nodup, fun w hw => hgr.marked w (hU.marked w (hq ▸ hw)), ?_⟩
    · intro j k s s' as bs hj hk h1 h2 h3
      rcases getElem?_set_cases hj with ⟨rfl, rfl⟩ | ⟨_, hj⟩
      · exact absurd h1 (hpc as)
      · rcases getElem?_set_cases hk with ⟨rfl, rfl⟩ | ⟨_, hk⟩
        · exact absurd h2 (hpc bs)
        · exact hU.one j k s s' as bs hj hk h1 h2 h3
    · intro s hs as h1
      rcases List.mem_or_eq_of_mem_set hs with hs | rfl
      · rw [hq]; exact hU.push s hs as h1
      · exact absurd h1 (hpc as)
  -- a new claimant
  have fresh : ∀ (as : List Act) (b : Arrays), as.Nodup → ¬ Marked ver inf a t.v → b.q2 = a.q2 → Grows ver inf a b →
      Uniq ver inf (ts.set i { t with pc := .todo as }) b := by
    intro as b hnd hm hq hgr
    refine ⟨?_, by rw [hq]; exact hU.nodup, fun w hw => hgr.marked w (hU.marked w (hq ▸ hw)), ?_⟩
    · intro j k s s' bs cs hj hk h1 h2 h3
      rcases getElem?_set_cases hj with ⟨rfl, rfl⟩ | ⟨_, hj⟩ <;> rcases getElem?_set_cases hk with ⟨rfl, rfl⟩ | ⟨_, hk⟩
      · rfl
      · exact absurd (h3 ▸ hat' s' (List.mem_of_getElem? hk) cs h2) hm
      · exact absurd (h3 ▸ hat' s (List.mem_of_getElem? hj) bs h1) hm
      · exact hU.one j k s s' bs cs hj hk h1 h2 h3
    · intro s hs bs h1
      rw [hq]
      rcases List.mem_or_eq_of_mem_set hs with hs | rfl
      · exact hU.push s hs bs h1
      · cases h1
        exact ⟨hnd, fun _ hmem => hm (hU.marked _ hmem)⟩
  unfold taskStep at h
  match hpc : t.pc with
  | .start =>
    obtain ⟨pc, h1, h2, h3⟩ := test_step hc hI.arr hu he
    simp only [hpc, h1, res_bind_ok] at h
    cases h
    refine keep pc a ?_ rfl (.refl _ _ _)
    intro as hpa
    subst hpa
    rcases hv with rfl | rfl
    · simp only [test] at h1
      cases hx : vget a.mark t.v with
      | error f => rw [hx] at h1; cases h1
      | ok x => rw [hx, res_bind_ok] at h1; injection h1 with h1; split at h1 <;> cases h1
    · simp only [test] at h1
      cases hx : vget a.mark t.v with
      | error f => rw [hx] at h1; cases h1
      | ok x => rw [hx, res_bind_ok] at h1; injection h1 with h1; split at h1 <;> cases h1
  | .claim old =>
    rw [hpc] at hat
    obtain ⟨b, pc, h1, h2, h3, h4, h5, h6⟩ := claim_step hc hI.arr hu he hat
    simp only [hpc, h1, res_bind_ok] at h
    cases h
    obtain ⟨k1, k2⟩ := claim_shape h1
    match hq : pc with
    | .todo as =>
      obtain ⟨k3, k4⟩ := k2 as rfl
      refine fresh as a' k3 ?_ k1 h2
      rcases k4 with ⟨rfl, k4⟩ | ⟨rfl, k4⟩
      · rcases hat with ⟨-, rfl⟩ | hat
        · rintro ⟨x, hx, hne⟩
          rw [k4] at hx; cases hx; exact hne rfl
        · cases hat
      · rintro ⟨x, hx, hne⟩
        rw [k4] at hx; cases hx; exact hne rfl
    | .start => exact keep (.start) a' (by intro as e; cases e) k1 h2
    | .skip => exact keep (.skip) a' (by intro as e; cases e) k1 h2
    | .claim o => exact keep (.claim o) a' (by intro as e; cases e) k1 h2
  | .todo [] => exact absurd (Or.inr hpc) hf
  | .todo (x :: xs) =>
    rw [hpc] at hat
    obtain ⟨b, h1, h2, h3, h4, h5⟩ := act_step hc hI.arr hu he hat
    simp only [hpc, h1, res_bind_ok] at h
    cases h
    obtain ⟨k1, k2⟩ := act_shape h1
    obtain ⟨hnd, hpush⟩ := hU.push t (List.mem_of_getElem? hi) _ hpc
    obtain ⟨hnx, hnd'⟩ := List.nodup_cons.1 hnd
    have hone : ∀ (j k : Nat) (s s' : Task) (as bs : List Act), (ts.set i { t with pc := .todo xs })[j]? = some s →
        (ts.set i { t with pc := .todo xs })[k]? = some s' → s.pc = .todo as → s'.pc = .todo bs → s.v = s'.v → j = k := by
      intro j k s s' as bs hj hk h1 h2 h3
      rcases getElem?_set_cases hj with ⟨rfl, rfl⟩ | ⟨_, hj⟩ <;> rcases getElem?_set_cases hk with ⟨rfl, rfl⟩ | ⟨_, hk⟩
      · rfl
      · exact hU.one _ _ t s' _ bs hi hk hpc h2 h3
      · exact hU.one _ _ s t as _ hj hi h1 hpc h3
      · exact hU.one j k s s' as bs hj hk h1 h2 h3
    by_cases cx : x = .push
    · obtain ⟨n, lst, k3, k4⟩ := k2 cx
      have hvq := hpush (by simp [cx])
      have hmem := fun w => mem_flatten_set k3 t.v w
      refine ⟨hone, by rw [k4]; exact nodup_flatten_set k3 hvq hU.nodup, ?_, ?_⟩
      · intro w hw
        rw [k4, hmem] at hw
        rcases hw with hw | rfl
        · exact h2.marked w (hU.marked w hw)
        · exact h2.marked _ (hat' t (List.mem_of_getElem? hi) _ hpc)
      · intro s hs as h1
        rw [k4, hmem]
        obtain ⟨j, hj⟩ := List.getElem?_of_mem hs
        rcases getElem?_set_cases hj with ⟨rfl, rfl⟩ | ⟨hne, hj⟩
        · cases h1
          exact ⟨hnd', fun hp => absurd (cx ▸ hp) hnx⟩
        · obtain ⟨k5, k6⟩ := hU.push s (List.mem_of_getElem? hj) as h1
          refine ⟨k5, fun hp => ?_⟩
          rintro (hm | hm)
          · exact k6 hp hm
          · exact hne (hU.one i j t s _ as hi hj hpc h1 hm.symm)
    · have k4 := k1 cx
      refine ⟨hone, by rw [k4]; exact hU.nodup, fun w hw => h2.marked w (hU.marked w (k4 ▸ hw)), ?_⟩
      intro s hs as h1
      rw [k4]
      rcases List.mem_or_eq_of_mem_set hs with hs | rfl
      · exact hU.push s hs as h1
      · cases h1
        exact ⟨hnd', fun hp => hpush (List.mem_cons_of_mem _ hp)⟩
  | .skip => exact absurd (Or.inl hpc) hf

theorem Reach.step {ver : Ver} {inf : Nat} {g : Rows α} {root : Nat} (hc : Ok inf g root) (hv : ver = .v7 ∨ ver = .bitmap) (s s' : State)
    (hs : Reach ver inf g root s) (h : Step ver inf g s (.ok (.inl s'))) : Reach ver inf g root s' := by
  generalize ho : (Except.ok (Sum.inl s') : Res (State ⊕ List Nat)) = o at h
  cases h with
  | @head q1 mark par lvl =>
    obtain ⟨l, rfl, hH, hn⟩ := hs
    by_cases he : (ver = .v7 ∨ ver = .v8) ∧ q1.all List.isEmpty = true
    · unfold headStep at ho
      rw [if_pos he] at ho
      cases ho
    · obtain ⟨ts, h1, h2, h3⟩ := headStep_round hc hH he
      rw [h1] at ho
      cases ho
      refine ⟨l, rfl, h2, ?_, by simp, by simp, ?_⟩
      · intro i j t s as bs hi _ ht _ _
        rw [h3 t (List.mem_of_getElem? hi)] at ht; cases ht
      · intro t ht as hp
        rw [h3 t ht] at hp; cases hp
  | task hi hf =>
    obtain ⟨l, rfl, hI, hU⟩ := hs
    obtain ⟨a', t', h1, -, h3⟩ := task_step hc hI hi hf
    rw [h1] at ho
    cases ho
    exact ⟨l, rfl, h3, hU.step hc hv hI hi hf h1⟩
  | join hf =>
    obtain ⟨l, rfl, hI, hU⟩ := hs
    unfold joinStep at ho
    split at ho
    · cases ho
    · cases ho
      exact ⟨l + 1, rfl, hI.joined hf, hU.nodup⟩

/-- C83. In `bfs_v7` and `bfs_top_down_bitmap`, which claim a vertex before they enqueue it, no vertex is enqueued twice for a round, whatever the
schedule: the frontier of a round is free of duplicates and consists of the vertices at one distance. -/
theorem bfs_frontier_once (ver : Ver) (hv : ver = .v7 ∨ ver = .bitmap) (inf : Nat) (g : Rows α) (hg : InRange g) (root : Nat) (hr : root < g.length)
    (hinf : g.length ≤ inf) (s : State) (h0 : init ver inf g root = .ok s) (q1 : List (List Nat)) (mark par : List Nat) (lvl : Nat)
    (h : Steps (Step ver inf g) s (.head q1 mark par lvl)) :
    q1.flatten.Nodup ∧ ∀ v, v ∈ q1.flatten ↔ IsDist g root v (lvl - 1) := by
  have hc : Ok inf g root := ⟨hg, hr, hinf⟩
  obtain ⟨q1', mark', par', h1, h2, -, h4⟩ := init_head ver hc
  rw [h1] at h0
  cases h0
  have := Steps.inv (Reach ver inf g root) (Reach.step hc hv) (s := .head q1' mark' par' 1) ⟨0, rfl, h2, by rw [h4]; simp⟩ h
  obtain ⟨l, rfl, hH, hn⟩ := this
  exact ⟨hn, hH.queue⟩

/-! ## bfs_bottom_up -/

theorem bu_round {inf : Nat} {g gx : Rows α} {root l : Nat} (hc : Usable (buArgs inf g gx) root) {Q : List Nat → Prop} {front : List Bool}
    (hjoin : ∀ ts par curr, BuInv (buArgs inf g gx) root l front ts par curr → (∀ t ∈ ts, t.isDone = true) →
      Sure (BuStep inf g gx) Q (.round ts par front curr)) :
    ∀ ts par curr, BuInv (buArgs inf g gx) root l front ts par curr → Sure (BuStep inf g gx) Q (.round ts par front curr) := by
  intro ts
  generalize hm : (ts.map BuTask.weight).sum = m
  induction m using Nat.strongRecOn generalizing ts with
  | ind m ih =>
    intro par curr hI
    by_cases hall : ∀ t ∈ ts, t.isDone = true
    · exact hjoin ts par curr hI hall
    · push Not at hall
      obtain ⟨t₀, ht₀, hf₀⟩ := hall
      obtain ⟨i₀, hi₀⟩ := List.getElem?_of_mem ht₀
      have hstep : ∀ o, BuStep inf g gx (.round ts par front curr) o →
          ∃ ts' par' curr', o = .ok (.inl (.round ts' par' front curr')) ∧ (ts'.map BuTask.weight).sum < m ∧
            BuInv (buArgs inf g gx) root l front ts' par' curr' := by
        intro o ho
        cases ho with
        | task hi hf =>
          obtain ⟨par', curr', t', h1, h2, h3⟩ := buTask_step hc hI hi hf
          refine ⟨_, par', curr', ?_, ?_, h3⟩
          · rw [h1]; rfl
          · rw [← hm]; exact sum_map_set_lt _ hi h2
        | join hf => exact absurd (hf t₀ ht₀) hf₀
      refine .mk ⟨_, .task hi₀ (by simpa using hf₀)⟩ ?_ ?_ ?_
      · intro f hfl
        obtain ⟨_, _, _, h, _⟩ := hstep _ hfl
        cases h
      · intro r hr
        obtain ⟨_, _, _, h, _⟩ := hstep _ hr
        cases h
      · intro s' hs'
        obtain ⟨ts', par', curr', h, hlt, hI'⟩ := hstep _ hs'
        cases h
        exact ih _ hlt ts' rfl par' curr' hI'

theorem bu_head_sure {inf : Nat} {g gx : Rows α} {root : Nat} (hc : Usable (buArgs inf g gx) root) (k : Nat) : ∀ l, g.length + 1 - l = k →
    ∀ n par frontier next, Lev (buArgs inf g gx) root l par → MarksWithin (buArgs inf g gx) root l next →
      (∀ v, IsDist g root v l → next[v]? = some true) → (n = 0 ↔ ¬ ∃ v, IsDist g root v l) →
      Sure (BuStep inf g gx) (fun par => par.length = g.length ∧ BfsTree g root (parentOf inf par)) (.head n par frontier next) := by
  induction k using Nat.strongRecOn with
  | ind k ih =>
    intro l hk n par frontier next hlev hmw hall hn
    have hlen : gx.length = g.length := hc.transpose.1
    by_cases c : n = 0
    · subst c
      refine .mk ⟨_, .head⟩ ?_ ?_ ?_
      · intro f h; generalize ho : (Except.error f : Res (BuState ⊕ List Nat)) = o at h; cases h; simp at ho
      · intro r h
        generalize ho : (Except.ok (Sum.inr r) : Res (BuState ⊕ List Nat)) = o at h
        cases h
        simp at ho
        subst ho
        refine hlev.final hc ?_
        rintro ⟨v, hv⟩
        obtain ⟨w, hw⟩ := hv.down (j := l) (by omega)
        exact hn.1 rfl ⟨w, hw⟩
      · intro s' h; generalize ho : (Except.ok (Sum.inl s') : Res (BuState ⊕ List Nat)) = o at h; cases h; simp at ho
    · have halive : ∃ v, IsDist g root v l := by
        by_contra hno
        exact c (hn.2 hno)
      obtain ⟨v₀, hv₀⟩ := halive
      have hlt := hv₀.lt_length hc.inRange hc.rootLt
      have hround : Sure (BuStep inf g gx) (fun par => par.length = g.length ∧ BfsTree g root (parentOf inf par))
          (.round (List.replicate gx.length .start) par next (List.replicate gx.length false)) := by
        refine bu_round (l := l) hc ?_ _ _ _ ⟨by simp [buArgs, hlen], hlev.1, by simp [buArgs, hlen], hmw, hall, ?_⟩
        · intro ts par' curr' hB hf
          obtain ⟨h1, h2, h3⟩ := hB.joined hc hf
          have hnext := ih (g.length + 1 - (l + 1)) (by simp only [buArgs] at hlt; omega) (l + 1) rfl (ts.count (.done true)) par' next curr' h1
            ⟨hB.lenC, fun v hv => ((h2 v).1 hv).near⟩ (fun v hv => (h2 v).2 hv) h3
          refine .mk ⟨_, .join hf⟩ ?_ ?_ ?_
          · intro f h
            generalize ho : (Except.error f : Res (BuState ⊕ List Nat)) = o at h
            cases h with
            | task hi hd => have := hf _ (List.mem_of_getElem? hi); rw [hd] at this; cases this
            | join _ => cases ho
          · intro r h
            generalize ho : (Except.ok (Sum.inr r) : Res (BuState ⊕ List Nat)) = o at h
            cases h with
            | task hi hd => have := hf _ (List.mem_of_getElem? hi); rw [hd] at this; cases this
            | join _ => cases ho
          · intro s' h
            generalize ho : (Except.ok (Sum.inl s') : Res (BuState ⊕ List Nat)) = o at h
            cases h with
            | task hi hd => have := hf _ (List.mem_of_getElem? hi); rw [hd] at this; cases this
            | join _ => cases ho; exact hnext
        · intro u t pu cu h1 h2 h3
          rw [(List.mem_replicate.1 (List.mem_of_getElem? h1)).2, (List.mem_replicate.1 (List.mem_of_getElem? h3)).2]
          exact ⟨rfl, hlev.2 u pu h2⟩
      refine .mk ⟨_, .head⟩ ?_ ?_ ?_
      · intro f h; generalize ho : (Except.error f : Res (BuState ⊕ List Nat)) = o at h; cases h; rw [if_pos c] at ho; cases ho
      · intro r h; generalize ho : (Except.ok (Sum.inr r) : Res (BuState ⊕ List Nat)) = o at h; cases h; rw [if_pos c] at ho; cases ho
      · intro s' h
        generalize ho : (Except.ok (Sum.inl s') : Res (BuState ⊕ List Nat)) = o at h
        cases h
        rw [if_pos c] at ho
        cases ho
        exact hround

/-- C83, `bfs_bottom_up`: given a graph with in-range neighbours, its transpose and a root, it ends without fault under every schedule and returns a
breadth-first search tree. -/
theorem bfs_bottom_up_correct (inf : Nat) (g gx : Rows α) (hg : InRange g) (ht : IsTranspose g gx) (root : Nat) (hr : root < g.length)
    (hinf : g.length ≤ inf) :
    ∃ s, buInit inf gx root = .ok s ∧ Sure (BuStep inf g gx) (fun par => par.length = g.length ∧ BfsTree g root (parentOf inf par)) s := by
  have hc : Usable (buArgs inf g gx) root := ⟨hg, ht, hr, hinf, by simp [buArgs], by simp [buArgs], by simp [buArgs]⟩
  have hlen : gx.length = g.length := ht.1
  unfold buInit
  rw [vset_of_lt (by simpa [hlen] using hr), res_bind_ok, vset_of_lt (by simpa [hlen] using hr), res_bind_ok]
  refine ⟨_, rfl, bu_head_sure hc _ 0 rfl _ _ _ _ ⟨by simp [buArgs, hlen], ?_⟩ ⟨by simp [buArgs, hlen], ?_⟩ ?_ ?_⟩
  · intro u pu hu
    rcases getElem?_set_cases hu with ⟨rfl, rfl⟩ | ⟨hne, hu⟩
    · refine ⟨⟨fun _ => ⟨0, Nat.le_refl _, IsDist.zero _ _⟩, fun _ => ?_⟩, fun _ => by unfold Good; rw [if_pos rfl]⟩
      simp only [buArgs]; omega
    · have hu' := (List.mem_replicate.1 (List.mem_of_getElem? hu)).2
      refine ⟨⟨fun h => absurd hu' h, ?_⟩, fun h => absurd hu' h⟩
      rintro ⟨d, hd, hdist⟩
      obtain rfl : d = 0 := by omega
      exact absurd hdist.of_zero.symm hne
  · intro v hv
    rcases getElem?_set_cases hv with ⟨rfl, -⟩ | ⟨-, hv⟩
    · exact ⟨0, Nat.le_refl _, IsDist.zero _ _⟩
    · cases (List.mem_replicate.1 (List.mem_of_getElem? hv)).2
  · intro v hv
    obtain rfl := hv.of_zero
    exact getElem?_set_same (List.getElem?_eq_getElem (by simpa [hlen] using hr))
  · constructor
    · intro h; cases h
    · intro h; exact absurd ⟨root, IsDist.zero _ _⟩ h

/-! ## A schedule, and a vertex enqueued twice -/

/-- One step: `some i` is a step of task `i`, `none` the head of the loop or the end of a round. -/
def move (ver : Ver) (inf : Nat) (g : Rows α) : State → Option Nat → Option (Res (State ⊕ List Nat))
  | .head q1 mark par lvl, none => some (headStep ver g q1 mark par lvl)
  | .round ts a lvl, none => if ∀ t ∈ ts, t.finished then some (joinStep ver a lvl) else none
  | .round ts a lvl, some i => match ts[i]? with
    | some t => if t.finished then none else some ((taskStep ver inf lvl a t).map fun x => .inl (.round (ts.set i x.2) x.1 lvl))
    | none => none
  | _, _ => none

theorem move_step {ver : Ver} {inf : Nat} {g : Rows α} {s : State} {m : Option Nat} {o : Res (State ⊕ List Nat)} (h : move ver inf g s m = some o) :
    Step ver inf g s o := by
  unfold move at h
  split at h
  · cases h; exact .head
  · split at h
    · rename_i hf; cases h; exact .join hf
    · cases h
  · split at h
    · rename_i hi
      split at h
      · cases h
      · rename_i hf; cases h; exact .task hi hf
    · cases h
  · cases h

/-- Some moves in a row. -/
def moves (ver : Ver) (inf : Nat) (g : Rows α) : List (Option Nat) → State → Option State
  | [], s => some s
  | m :: ms, s => match move ver inf g s m with
    | some (.ok (.inl s')) => moves ver inf g ms s'
    | _ => none

theorem moves_steps {ver : Ver} {inf : Nat} {g : Rows α} {ms : List (Option Nat)} {s s' : State} (h : moves ver inf g ms s = some s') :
    Steps (Step ver inf g) s s' := by
  induction ms generalizing s with
  | nil => cases h; exact .refl _
  | cons m ms ih =>
    unfold moves at h
    split at h
    · rename_i s'' hm
      exact .head (move_step hm) (ih h)
    · cases h

/-- A diamond: both neighbours of 0 lead to 3. -/
def diamond : Rows Unit := [[(1, ()), (2, ())], [(3, ())], [(3, ())], []]

/-- The frontier at the head of the loop. -/
def State.frontier : State → List Nat
  | .head q1 _ _ _ => q1.flatten
  | .round _ _ _ => []

/-- Without a claim the test and the write are apart, and a vertex can be enqueued twice: `bfs_v8`, `bfs_v9` and `bfs_top_down`, on the diamond, when
both tasks read before one of them writes. -/
theorem bfs_frontier_twice (ver : Ver) (hv : ver = .v8 ∨ ver = .v9 ∨ ver = .topDown) :
    ∃ s s', init ver 9 diamond 0 = .ok s ∧ Steps (Step ver 9 diamond) s s' ∧ s'.frontier = [3, 3] := by
  have key : ∀ ms s s', init ver 9 diamond 0 = .ok s → moves ver 9 diamond ms s = some s' → s'.frontier = [3, 3] →
      ∃ s s', init ver 9 diamond 0 = .ok s ∧ Steps (Step ver 9 diamond) s s' ∧ s'.frontier = [3, 3] :=
    fun ms s s' h1 h2 h3 => ⟨s, s', h1, moves_steps h2, h3⟩
  rcases hv with rfl | rfl | rfl
  · exact key ([none] ++ List.replicate 4 (some 0) ++ List.replicate 4 (some 1) ++ [none, none, some 0, some 1] ++ List.replicate 3 (some 0) ++
      List.replicate 3 (some 1) ++ [none]) _ _ rfl rfl rfl
  · exact key ([none] ++ List.replicate 4 (some 0) ++ List.replicate 4 (some 1) ++ [none, none, some 0, some 1] ++ List.replicate 3 (some 0) ++
      List.replicate 3 (some 1) ++ [none]) _ _ rfl rfl rfl
  · exact key ([none] ++ List.replicate 3 (some 0) ++ List.replicate 3 (some 1) ++ [none, none, some 0, some 1] ++ List.replicate 2 (some 0) ++
      List.replicate 2 (some 1) ++ [none]) _ _ rfl rfl rfl

/-- The hypotheses hold for the diamond and its transpose. -/
example : InRange diamond ∧ 0 < diamond.length ∧ diamond.length ≤ 9 ∧ IsTranspose diamond [[], [(0, ())], [(0, ())], [(1, ()), (2, ())]] :=
  ⟨by decide, by decide, by decide, (isTranspose_iff _ _ (by decide) (by decide)).2 (by decide)⟩

/-- A run of `bfs_v7` in which the two tasks compete for the vertex 3: it is enqueued once. -/
example : ((init Ver.v7 9 diamond 0).toOption.bind fun s =>
    moves .v7 9 diamond ([none] ++ List.replicate 4 (some 0) ++ List.replicate 4 (some 1) ++ [none, none, some 0, some 1, some 1, some 0] ++
      List.replicate 2 (some 1) ++ [none]) s).map State.frontier = some [3] := rfl

end NW.BfsExp
