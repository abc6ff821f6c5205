import Verif.Model.BcExp
import Verif.Lemmas.Brandes

/-! # Lemmas: the phases of the experimental betweenness versions -/

namespace NW.BcExp
open Spec Fifo
open NW.Brandes (Vec isNext isNext_iff Cnt CntI FInv)

variable {α : Type}

/-- The order of the vertices already dealt with, and that of the waiting ones, matter only up to the distance. -/
theorem inv_perm {g : Rows α} {s : Nat} {done q done' q' : List Nat} {D par : Nat → Option Nat} (h : Inv g s done q D par) (hd : done'.Perm done) (hq : q'.Perm q)
    (hm : (done' ++ q').Pairwise (fun a b => ∀ x y, D a = some x → D b = some y → x ≤ y)) : Inv g s done' q' D par := by
  have hp : (done' ++ q').Perm (done ++ q) := hd.append hq
  exact {
    nodup := hp.nodup_iff.2 h.nodup
    disc := fun v => by rw [hp.mem_iff]; exact h.disc v
    root0 := h.root0
    rootpar := h.rootpar
    parD := h.parD
    mono := hm
    near := fun u hu v hv => h.near u (hq.mem_iff.1 hu) v (hp.mem_iff.1 hv)
    bound := fun v d hv => by rw [hd.length_eq]; exact h.bound v d hv
    closed := fun v hv => h.closed v (hd.mem_iff.1 hv)
    tree := fun v p h1 h2 => by
      obtain ⟨a, b, c⟩ := h.tree v p h1 h2
      exact ⟨a, hd.mem_iff.2 b, c⟩
    walk := h.walk }

theorem pairwise_const {D : Nat → Option Nat} {k : Nat} {l : List Nat} (h : ∀ v ∈ l, D v = some k) :
    l.Pairwise (fun a b => ∀ x y, D a = some x → D b = some y → x ≤ y) := by
  induction l with
  | nil => exact .nil
  | cons a l ih =>
    refine .cons ?_ (ih fun v hv => h v (by simp [hv]))
    intro b hb x y hx hy
    rw [h a (by simp)] at hx; rw [h b (by simp [hb])] at hy
    cases hx; cases hy; exact Nat.le_refl _

/-- The order in which the next phase has been found. -/
def ord (ver : Version) (l : List Nat) : List Nat := if ver.front then l.reverse else l

theorem ord_perm (ver : Version) (l : List Nat) : l.Perm (ord ver l) := by
  unfold ord
  split
  · exact (List.reverse_perm l).symm
  · exact .refl _

theorem ord_push (ver : Version) (l : List Nat) (w : Nat) : ord ver (if ver.front then w :: l else l ++ [w]) = ord ver l ++ [w] := by
  unfold ord
  cases ver.front <;> simp

/-- The arrays represent the ghost values. -/
structure Rep (M inf n : Nat) (st : St) (D : Nat → Option Nat) (G : Nat → Nat) (Pf : Nat → List Nat) : Prop where
  d : Vec n (fun v => (D v).getD inf) st.depths
  pc : Vec n (fun v => G v % M) st.pc
  P : Vec n Pf st.P

/-- The state inside phase `k`, with the list `next` for the next phase. -/
structure Ph (D : Nat → Option Nat) (st : St) (S0 : List (List Nat)) (k : Nat) (next : List Nat) : Prop where
  ph : st.phase = k
  S : st.S = S0 ++ [next]
  len : S0.length = k + 1
  nx : ∀ v ∈ next, D v = some (k + 1)
  ct : st.count = next.length

theorem vget_last {β : Type} {S0 : List β} {k : Nat} (h : S0.length = k + 1) (x : β) : vget (S0 ++ [x]) (k + 1) = .ok x :=
  vget_eq_ok.2 (by rw [← h, List.getElem?_append_right (Nat.le_refl _)]; simp)

theorem vset_last {β : Type} {S0 : List β} {k : Nat} (h : S0.length = k + 1) (x y : β) : vset (S0 ++ [x]) (k + 1) y = .ok (S0 ++ [y]) := by
  rw [vset_of_lt (by simp [h]), ← h, List.set_append_right _ _ (Nat.le_refl _)]; simp

/-- One neighbour. -/
theorem edge_step (ver : Version) (M inf : Nat) {g : Rows α} (hg : InRange g) (hinf : g.length ≤ inf) {s : Nat} (hs : s < g.length) {done : List Nat} {u : Nat} {sc post next : List Nat}
    {D par : Nat → Option Nat} {G : Nat → Nat} {Pf : Nat → List Nat} {st : St} {S0 : List (List Nat)} {k : Nat} {e : Nat × α}
    (hm : Mid g s done u sc (post ++ ord ver next) D par)
    (hc : Cnt g s done u sc D G Pf) (hr : Rep M inf g.length st D G Pf) (hp : Ph D st S0 k next) (hk : D u = some k) (he : Edge g u e.1) :
    ∃ st' D' par' G' Pf' next', edge ver M inf u st e = .ok st' ∧ Mid g s done u (sc ++ [e.1]) (post ++ ord ver next') D' par' ∧ Cnt g s done u (sc ++ [e.1]) D' G' Pf' ∧
      Rep M inf g.length st' D' G' Pf' ∧ Ph D' st' S0 k next' ∧ ∀ v d, D v = some d → D' v = some d := by
  obtain ⟨w, a⟩ := e
  simp only [] at he
  have hwn := hg u w he
  have hun := he.src_lt
  have hlt : ∀ v d, D v = some d → d < g.length := by
    intro v d hd
    have h1 := hm.bound v d hd
    have h2 := hm.boundU k hk
    by_contra hge
    have hnd := hm.nodup
    have hsub : (done ++ u :: (post ++ ord ver next)) ⊆ List.range g.length := by
      intro x hx
      obtain ⟨y, hy⟩ := (hm.disc x).1 hx
      exact List.mem_range.2 ((hm.walk x y hy).lt hg hs)
    have hle := (hnd.subperm hsub).length_le
    simp only [List.length_append, List.length_cons, List.length_range] at hle
    have hvk := hm.near v ((hm.disc v).2 ⟨d, hd⟩) d k hd hk
    have hvm := (hm.disc v).2 ⟨d, hd⟩
    rcases List.mem_append.1 hvm with hv | hv
    · obtain ⟨n1, n2, n3⟩ := List.pairwise_append.1 hm.mono
      have := n3 v hv u (by simp) d k hd hk
      omega
    · rcases List.mem_cons.1 hv with hv | hv
      · subst hv; rw [hk] at hd; cases hd; omega
      · have : 0 < (post ++ ord ver next).length := List.length_pos_of_mem hv
        rw [List.length_append] at this
        omega
  have hkn := hlt u k hk
  -- discovery
  obtain ⟨st1, D1, par1, next1, h1, hm1, hm1', hc1, hr1, hp1, hkeep, y, hy1⟩ : ∃ st1 D1 par1 next1, discover ver inf u w st = .ok st1 ∧
      Mid g s done u (sc ++ [w]) (post ++ ord ver next1) D1 par1 ∧ Mid g s done u sc (post ++ ord ver next1) D1 par1 ∧ Cnt g s done u sc D1 G Pf ∧ Rep M inf g.length st1 D1 G Pf ∧
      Ph D1 st1 S0 k next1 ∧ (∀ v d, D v = some d → D1 v = some d) ∧ ∃ y, D1 w = some y := by
    unfold discover
    rw [hr.d.vget hwn, res_bind_ok]
    cases hcw : D w with
    | some y =>
      have := hlt w y hcw
      rw [if_neg (by simp; omega)]
      exact ⟨st, D, par, next, rfl, hm.seen hcw, hm, hc, hr, hp, fun _ _ h => h, y, hcw⟩
    | none =>
      rw [if_pos (by simp), hp.S, hp.ph, vget_last hp.len, res_bind_ok, vset_last hp.len, res_bind_ok, hr.d.vget hun, res_bind_ok]
      obtain ⟨e1, e2⟩ := hr.d.vset hwn (((D u).getD inf + 1) % (inf + 1))
      rw [e1, res_bind_ok]
      have hmd := hm.discover hcw he hk
      rw [List.append_assoc, ← ord_push] at hmd
      have hkeep : ∀ v d, D v = some d → upd D w (k + 1) v = some d := by
        intro v d hv
        have : v ≠ w := by rintro rfl; rw [hcw] at hv; cases hv
        simp [upd, this, hv]
      refine ⟨_, upd D w (k + 1), upd par w u, _, rfl, hmd, { hmd with here := fun z hz => hmd.here z (by simp [hz]) }, hc.discover hm hcw hk, ⟨?_, hr.pc, hr.P⟩,
        ⟨rfl, rfl, hp.len, ?_, ?_⟩, hkeep, k + 1, by simp [upd]⟩
      · refine e2.congr fun v _ => ?_
        by_cases c : v = w
        · subst c
          rw [if_pos rfl, hk]
          simp only [Option.getD_some, upd, if_true]
          exact Nat.mod_eq_of_lt (by omega)
        · simp [upd, c]
      · intro v hv
        have : v = w ∨ v ∈ next := by
          cases hf : ver.front <;> rw [hf] at hv <;> simp at hv <;> tauto
        rcases this with rfl | hv
        · simp [upd]
        · exact hkeep v _ (hp.nx v hv)
      · show st.count + 1 = _
        rw [hp.ct]
        cases ver.front <;> simp
  have hk1 := hkeep u k hk
  -- recording
  have hw1 : D1 w = some y := hy1
  have hylt : y ≤ k + 1 := hm1.near w ((hm1.disc w).2 ⟨y, hw1⟩) y k hw1 hk1
  unfold edge record
  simp only []
  rw [h1, res_bind_ok, hr1.d.vget hwn, res_bind_ok, hr1.d.vget hun, res_bind_ok, hw1, hk1]
  simp only [Option.getD_some, Nat.mod_eq_of_lt (show k + 1 < inf + 1 by omega)]
  split
  · rename_i hst
    have hn : isNext D1 u w = true := isNext_iff.2 ⟨k, hk1, by rw [hw1, hst]⟩
    rw [hr1.pc.vget hwn, res_bind_ok, hr1.pc.vget hun, res_bind_ok]
    obtain ⟨e1, e2⟩ := hr1.pc.vset hwn ((G w % M + G u % M) % M)
    obtain ⟨e3, e4⟩ := hr1.P.vset hwn (Pf w ++ [u])
    rw [e1, res_bind_ok, hr1.P.vget hwn, res_bind_ok, e3, res_bind_ok]
    refine ⟨_, D1, par1, _, _, next1, rfl, hm1, hc1.record hm1' hn, ⟨hr1.d, ?_, e4⟩, ⟨hp1.ph, hp1.S, hp1.len, hp1.nx, hp1.ct⟩, hkeep⟩
    refine e2.congr fun v _ => ?_
    by_cases c : v = w
    · rw [if_pos c, if_pos c, ← Nat.add_mod]
    · rw [if_neg c, if_neg c]
  · rename_i hst
    have hn : isNext D1 u w = false := by
      cases hb : isNext D1 u w with
      | false => rfl
      | true =>
        obtain ⟨x', a1, a2⟩ := isNext_iff.1 hb
        rw [hk1] at a1; cases a1
        rw [hw1] at a2; cases a2
        exact absurd rfl hst
    exact ⟨st1, D1, par1, G, Pf, next1, rfl, hm1, hc1.skip hn, hr1, hp1, hkeep⟩

/-- One vertex of a phase. -/
theorem visit_step (ver : Version) (M inf : Nat) {g : Rows α} (hg : InRange g) (hinf : g.length ≤ inf) {s : Nat} (hs : s < g.length) {done : List Nat} {u : Nat} {post next : List Nat}
    {D par : Nat → Option Nat} {G : Nat → Nat} {Pf : Nat → List Nat} {st : St} {S0 : List (List Nat)} {k : Nat}
    (hi : Inv g s done (u :: (post ++ ord ver next)) D par) (hc : CntI g s done D G Pf) (hr : Rep M inf g.length st D G Pf) (hp : Ph D st S0 k next) (hk : D u = some k) :
    ∃ st' D' par' G' Pf' next', visit ver M inf g st u = .ok st' ∧ Inv g s (done ++ [u]) (post ++ ord ver next') D' par' ∧ CntI g s (done ++ [u]) D' G' Pf' ∧
      Rep M inf g.length st' D' G' Pf' ∧ Ph D' st' S0 k next' ∧ ∀ v d, D v = some d → D' v = some d := by
  have hun : u < g.length := (hi.walk u k hk).lt hg hs
  unfold visit
  rw [vget_of_lt hun, res_bind_ok]
  have hrow : (g[u]'hun).map Prod.fst = nbrs g u := by
    rw [nbrs, List.getD_eq_getElem?_getD, List.getElem?_eq_getElem hun]; rfl
  obtain ⟨st', hf, D', par', G', Pf', next', a1, a2, a3, a4, a5⟩ := foldlM_list_inv (f := edge ver M inf u) (l := g[u]'hun)
    (fun pre (x : St) => ∃ D' par' G' Pf' next', Mid g s done u (pre.map Prod.fst) (post ++ ord ver next') D' par' ∧ Cnt g s done u (pre.map Prod.fst) D' G' Pf' ∧
      Rep M inf g.length x D' G' Pf' ∧ Ph D' x S0 k next' ∧ ∀ v d, D v = some d → D' v = some d)
    (s := st) ⟨D, par, G, Pf, next, hi.start, hc.start u, hr, hp, fun _ _ h => h⟩ (by
      rintro pre x post' hl y ⟨D', par', G', Pf', next', a1, a2, a3, a4, a5⟩
      obtain ⟨st', D2, par2, G2, Pf2, next2, b1, b2, b3, b4, b5, b6⟩ := edge_step ver M inf hg hinf hs a1 a2 a3 a4 (a5 u k hk) (e := x) (by
        rw [Edge, ← hrow, hl]; simp)
      exact ⟨st', b1, D2, par2, G2, Pf2, next2, by rw [List.map_append]; exact b2, by rw [List.map_append]; exact b3, b4, b5, fun v d hv => b6 v d (a5 v d hv)⟩)
  rw [hrow] at a1 a2
  have hud : u ∉ done := by
    have := a1.nodup
    rw [List.nodup_append] at this
    exact fun hh => this.2.2 u hh u (by simp) rfl
  exact ⟨st', D', par', G', Pf', next', hf, a1.finish, a2.finish hud, a3, a4, a5⟩

/-- The vertices of the earlier phases, each phase backwards. -/
def doneOf (S : List (List Nat)) (k : Nat) : List Nat := ((S.take k).map List.reverse).flatten

/-- The state before phase `k`. -/
structure FI (M inf : Nat) (g : Rows α) (s : Nat) (st : St) (S0 : List (List Nat)) (q : List Nat) (D par : Nat → Option Nat) (G : Nat → Nat) (Pf : Nat → List Nat) : Prop where
  S : st.S = S0 ++ [q, []]
  len : S0.length = st.phase
  inv : Inv g s (doneOf S0 st.phase) q D par
  cnt : CntI g s (doneOf S0 st.phase) D G Pf
  rep : Rep M inf g.length st D G Pf
  lvl : ∀ v ∈ q, D v = some st.phase
  ct : st.count = q.length
  hd : st.S.head? = some [s]

theorem body_step (ver : Version) (M inf : Nat) {g : Rows α} (hg : InRange g) (hinf : g.length ≤ inf) {s : Nat} (hs : s < g.length) {st : St} {S0 : List (List Nat)} {q : List Nat}
    {D par : Nat → Option Nat} {G : Nat → Nat} {Pf : Nat → List Nat} (h : FI M inf g s st S0 q D par G Pf) (hq : 0 < st.count) :
    ∃ st' D' par' G' Pf' q', body ver M inf g st = .ok (.inl st') ∧ FI M inf g s st' (S0 ++ [q]) q' D' par' G' Pf' ∧ st'.phase = st.phase + 1 ∧ st.phase < g.length := by
  unfold body
  rw [if_pos hq]
  have hget : vget st.S st.phase = .ok q := vget_eq_ok.2 (by rw [h.S, ← h.len, List.getElem?_append_right (Nat.le_refl _)]; simp)
  rw [hget, res_bind_ok]
  have hstart : ∀ post, q = [] ++ post → Inv g s (doneOf S0 st.phase ++ []) (post ++ ord ver []) D par := by
    intro post hl
    have hl : q = post := by simpa using hl
    rw [List.append_nil, ← hl]
    have : ord ver [] = [] := by unfold ord; cases ver.front <;> rfl
    rw [this, List.append_nil]; exact h.inv
  obtain ⟨st', hf, D', par', G', Pf', next', a1, a2, a3, a4, a5⟩ := foldlM_list_inv (f := visit ver M inf g) (l := q)
    (fun pre (x : St) => ∃ D' par' G' Pf' next', (∀ post, q = pre ++ post → Inv g s (doneOf S0 st.phase ++ pre) (post ++ ord ver next') D' par') ∧
      CntI g s (doneOf S0 st.phase ++ pre) D' G' Pf' ∧ Rep M inf g.length x D' G' Pf' ∧ Ph D' x (S0 ++ [q]) st.phase next' ∧ ∀ v d, D v = some d → D' v = some d)
    (s := { st with count := 0 }) ⟨D, par, G, Pf, [], hstart, by rw [List.append_nil]; exact h.cnt, ⟨h.rep.d, h.rep.pc, h.rep.P⟩, ⟨rfl, by simp [h.S], by simp [h.len], by simp, rfl⟩, fun _ _ h => h⟩ (by
      rintro pre u post hl x ⟨D', par', G', Pf', next', a1, a2, a3, a4, a5⟩
      have hu : D u = some st.phase := h.lvl u (by rw [hl]; simp)
      obtain ⟨st', D2, par2, G2, Pf2, next2, b1, b2, b3, b4, b5, b6⟩ := visit_step ver M inf hg hinf hs (a1 (u :: post) hl) a2 a3 a4 (a5 u _ hu)
      refine ⟨st', b1, D2, par2, G2, Pf2, next2, ?_, by rw [← List.append_assoc]; exact b3, b4, b5, fun v d hv => b6 v d (a5 v d hv)⟩
      intro post' hl'
      have : post' = post := by
        rw [hl, List.append_assoc] at hl'
        exact ((List.cons.inj (List.append_cancel_left hl')).2).symm
      rw [this, ← List.append_assoc]; exact b2)
  rw [hf, res_bind_ok]
  have hinv := a1 [] (by simp)
  rw [List.nil_append] at hinv
  have hdone : doneOf (S0 ++ [q]) (st.phase + 1) = doneOf S0 st.phase ++ q.reverse := by
    unfold doneOf
    rw [List.take_of_length_le (by simp [h.len]), List.take_of_length_le (by rw [h.len])]
    simp
  have hql : ∀ v ∈ q, D' v = some st.phase := fun v hv => a5 v _ (h.lvl v hv)
  have hperm : (doneOf S0 st.phase ++ q.reverse).Perm (doneOf S0 st.phase ++ q) := List.Perm.append (.refl _) (List.reverse_perm q)
  have hmono : ((doneOf S0 st.phase ++ q.reverse) ++ next').Pairwise (fun a b => ∀ x y, D' a = some x → D' b = some y → x ≤ y) := by
    have hm := hinv.mono
    rw [List.pairwise_append, List.pairwise_append] at hm
    rw [List.pairwise_append, List.pairwise_append]
    refine ⟨⟨hm.1.1, pairwise_const fun v hv => hql v (by simpa using hv), fun a ha b hb => hm.1.2.2 a ha b (by simpa using hb)⟩, pairwise_const a4.nx, ?_⟩
    intro a ha b hb
    exact hm.2.2 a (hperm.mem_iff.1 ha) b ((ord_perm ver next').mem_iff.1 hb)
  have hlt : st.phase < g.length := by
    obtain ⟨u, hu⟩ := List.exists_mem_of_length_pos (h.ct ▸ hq)
    have hnd := h.inv.nodup
    have hsub : (doneOf S0 st.phase ++ q) ⊆ List.range g.length := by
      intro x hx
      obtain ⟨y, hy⟩ := (h.inv.disc x).1 hx
      exact List.mem_range.2 ((h.inv.walk x y hy).lt hg hs)
    have hle := (hnd.subperm hsub).length_le
    have hb := h.inv.bound u _ (h.lvl u hu)
    have := h.ct ▸ hq
    simp only [List.length_append, List.length_range] at hle
    omega
  refine ⟨_, D', par', G', Pf', next', rfl, ⟨?_, ?_, ?_, ?_, ⟨a3.d, a3.pc, a3.P⟩, ?_, a4.ct, ?_⟩, ?_, hlt⟩
  · show st'.S ++ [[]] = _
    rw [a4.S]; simp
  · show _ = st'.phase + 1
    rw [a4.ph]; simp [h.len]
  · show Inv g s (doneOf (S0 ++ [q]) (st'.phase + 1)) next' D' par'
    rw [a4.ph, hdone]
    exact inv_perm hinv hperm (ord_perm ver next') hmono
  · show CntI g s (doneOf (S0 ++ [q]) (st'.phase + 1)) D' G' Pf'
    rw [a4.ph, hdone]
    refine ⟨fun v w => ?_, a2.sum⟩
    rw [a2.cnt]
    simp only [List.mem_append, List.mem_reverse]
  · intro v hv
    show D' v = some (st'.phase + 1)
    rw [a4.ph]; exact a4.nx v hv
  · show (st'.S ++ [[]]).head? = _
    have := h.hd
    rw [h.S] at this
    rw [a4.S]
    cases S0 with
    | nil => simpa using this
    | cons a S0 => simpa using this
  · show st'.phase + 1 = _
    rw [a4.ph]

theorem fwd_gives (ver : Version) (M inf : Nat) {g : Rows α} (hg : InRange g) (hinf : g.length ≤ inf) {s : Nat} (hs : s < g.length) {st : St} (h : init M inf g.length s = .ok st) :
    Run.Gives (Run.loop (body ver M inf g) st) fun r => ∃ S0 D par G Pf, 0 < r.phase ∧ FI M inf g s r S0 [] D par G Pf := by
  refine Run.gives_loop (fun st => (∃ S0 q D par G Pf, FI M inf g s st S0 q D par G Pf) ∧ st.phase ≤ g.length ∧ (st.phase = 0 → 0 < st.count)) (fun st => g.length + 1 - st.phase) ?_ st ?_
  · rintro st ⟨⟨S0, q, D, par, G, Pf, hF⟩, hle, h0⟩
    by_cases hq : 0 < st.count
    · obtain ⟨st', D', par', G', Pf', q', b1, b2, b3, b4⟩ := body_step ver M inf hg hinf hs hF hq
      exact Or.inl ⟨st', b1, ⟨⟨_, _, _, _, _, _, b2⟩, by omega, by omega⟩, by omega⟩
    · right
      refine ⟨st, by unfold body; rw [if_neg hq]; rfl, S0, D, par, G, Pf, ?_, ?_⟩
      · rcases Nat.eq_zero_or_pos st.phase with e | e
        · exact absurd (h0 e) hq
        · exact e
      · have : q = [] := by
          have := hF.ct
          exact List.eq_nil_of_length_eq_zero (by omega)
        rw [this] at hF; exact hF
  · unfold init at h
    obtain ⟨e1, e2⟩ := (Vec.replicate g.length 0).vset hs (1 % M)
    obtain ⟨e3, e4⟩ := (Vec.replicate g.length inf).vset hs 0
    rw [e1, res_bind_ok, e3, res_bind_ok] at h
    cases h
    refine ⟨⟨[], [s], _, _, fun v => if v = s then 1 else 0, fun _ => [], rfl, rfl, Inv.init g s, ⟨?_, ?_⟩, ⟨?_, ?_, Vec.replicate _ _⟩, ?_, rfl, rfl⟩, Nat.zero_le _, fun _ => Nat.one_pos⟩
    · intro v w; simp [doneOf]
    · intro w; simp
    · refine e4.congr fun v _ => ?_
      by_cases c : v = s <;> simp [c, upd]
    · refine e2.congr fun v _ => ?_
      by_cases c : v = s <;> simp [c]
    · intro v hv
      simp at hv; simp [hv, upd]

/-- The state of the sequential routine with the same content. -/
def ghost (st : St) (n : Nat) (D : Nat → Option Nat) (done : List Nat) : Brandes.Fwd :=
  { Q := [], S := done.reverse, pc := st.pc, d := (List.range n).map (Brandes.stored D), P := st.P }

theorem FI.ghost {M inf : Nat} {g : Rows α} {s : Nat} {st : St} {S0 : List (List Nat)} {D par : Nat → Option Nat} {G : Nat → Nat} {Pf : Nat → List Nat}
    (h : FI M inf g s st S0 [] D par G Pf) : FInv M g s (ghost st g.length D (doneOf S0 st.phase)) (doneOf S0 st.phase) D par G Pf :=
  ⟨rfl, h.inv, h.cnt, ⟨⟨by simp [BcExp.ghost], fun v hv => by simp [BcExp.ghost, hv]⟩, h.rep.pc, h.rep.P⟩⟩

theorem backVertex_eq {st : St} {n : Nat} {D : Nat → Option Nat} {done : List Nat} {z w : Nat} (hne : w ≠ z) (x : List ℚ × List ℚ) :
    backVertex st x w = Brandes.backStep (ghost st n D done) z x w := by
  unfold backVertex Brandes.backStep
  simp only [if_pos hne]; rfl

theorem foldlM_flatten {β γ : Type} (f : β → γ → Res β) : ∀ (L : List (List γ)) (x : β), L.foldlM (fun x l => l.foldlM f x) x = L.flatten.foldlM f x
  | [], _ => rfl
  | l :: L, x => by
    rw [List.foldlM_cons, List.flatten_cons, List.foldlM_append]
    congr 1
    funext y
    exact foldlM_flatten f L y

theorem foldlM_congr {β γ : Type} {f f' : β → γ → Res β} : ∀ (l : List γ) (_ : ∀ x, ∀ w ∈ l, f x w = f' x w) (x : β), l.foldlM f x = l.foldlM f' x
  | [], _, _ => rfl
  | a :: l, h, x => by
    rw [List.foldlM_cons, List.foldlM_cons, h x a (by simp)]
    congr 1
    funext y
    exact foldlM_congr l (fun x w hw => h x w (by simp [hw])) y

/-- The loop over the phases is a loop over their vertices. -/
theorem phases_eq {st : St} {β : Type} {f : β → Nat → Res β} : ∀ (is : List Nat) (L : List (List Nat)) (_ : is.map (fun i => st.S[i]?) = L.map some) (x : β),
    is.foldlM (fun x i => do
      let l ← vget st.S i
      l.foldlM f x) x = L.flatten.foldlM f x
  | [], [], _, _ => rfl
  | [], _ :: _, h, _ => by simp at h
  | _ :: _, [], h, _ => by simp at h
  | i :: is, l :: L, h, x => by
    simp only [List.map_cons, List.cons.injEq] at h
    rw [List.foldlM_cons, List.flatten_cons, List.foldlM_append, vget_eq_ok.2 h.1, res_bind_ok]
    congr 1
    funext y
    exact phases_eq is L h.2 y

end NW.BcExp
