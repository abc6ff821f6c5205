import Verif.Model.BcVerify
import Verif.Props.BrandesPar

/-! # Lemmas: `BCVerifier` -/

namespace NW.BcVerify
open Spec
open Fifo
open NW.Brandes (Vec stored Rep Cnt FInv isNext isNext_iff)

variable {α : Type}

/-! ## The search does what that of `brandes_bc` does -/

structure Match (n : Nat) (v : Fwd) (st : Brandes.Fwd) : Prop where
  le : v.it ≤ v.visit.length
  Q : v.visit.drop v.it = st.Q
  d : v.d = st.d
  pc : v.pc = st.pc ++ [0]
  len : st.pc.length = n

theorem vget_append {β : Type} {l r : List β} {i : Nat} (h : i < l.length) : vget (l ++ r) i = vget l i := by
  rw [vget_of_lt h, vget_of_lt (by simp; omega), List.getElem_append_left h]

theorem vset_append {β : Type} {l r : List β} {i : Nat} {x : β} (h : i < l.length) : vset (l ++ r) i x = .ok (l.set i x ++ r) := by
  rw [vset_of_lt (by simp; omega), List.set_append_left _ _ h]

/-- While the neighbours of a vertex are looked at, its own entry is still at the front of what remains. -/
structure MatchU (n u : Nat) (v : Fwd) (st : Brandes.Fwd) : Prop where
  le : v.it < v.visit.length
  Q : v.visit.drop v.it = u :: st.Q
  d : v.d = st.d
  pc : v.pc = st.pc ++ [0]
  len : st.pc.length = n

theorem fwdEdge_match {M n u : Nat} {D : Nat → Option Nat} {v : Fwd} {st st' : Brandes.Fwd} {e : Nat × α} (hm : MatchU n u v st) (hu : u < n) (he : e.1 < n)
    (hd : Vec n (stored D) st.d) (hf : Brandes.fwdEdge M u st e = .ok st') : ∃ v', fwdEdge M u v e = .ok v' ∧ MatchU n u v' st' ∧ v'.it = v.it := by
  obtain ⟨w, a⟩ := e
  simp only [] at he
  unfold Brandes.fwdEdge at hf
  unfold fwdEdge
  simp only [] at hf ⊢
  obtain ⟨v1, st1, h1, h2, h3, h4, h5⟩ : ∃ v1 st1, discover u w v = .ok v1 ∧ Brandes.discover u w st = .ok st1 ∧ MatchU n u v1 st1 ∧ v1.it = v.it ∧
      st1.d.length = n := by
    unfold discover Brandes.discover
    rw [hm.d, hd.vget he, res_bind_ok, res_bind_ok]
    cases hD : D w with
    | some x =>
      rw [if_neg (by unfold stored; rw [hD]; simp), if_neg (by unfold stored; rw [hD]; simp)]
      exact ⟨v, st, rfl, rfl, hm, rfl, hd.1⟩
    | none =>
      rw [if_pos (by unfold stored; rw [hD]), if_pos (by unfold stored; rw [hD]; simp), hd.vget hu, res_bind_ok, res_bind_ok,
        vset_of_lt (by rw [hd.1]; exact he), res_bind_ok, res_bind_ok]
      refine ⟨_, _, rfl, rfl, ⟨by have := hm.le; simp; omega, ?_, rfl, hm.pc, hm.len⟩, rfl, by simpa using hd.1⟩
      simp only []
      rw [List.drop_append_of_le_length (Nat.le_of_lt hm.le), hm.Q]
      rfl
  rw [h2, res_bind_ok] at hf
  rw [h1, res_bind_ok]
  unfold Brandes.record at hf
  unfold record
  rw [h3.d]
  have e1 : vget st1.d w = .ok (st1.d[w]'(by omega)) := vget_of_lt (by omega)
  have e2 : vget st1.d u = .ok (st1.d[u]'(by omega)) := vget_of_lt (by omega)
  rw [e1, res_bind_ok, e2, res_bind_ok] at hf ⊢
  split
  · rename_i hc
    rw [if_pos hc] at hf
    have l1 := h3.len
    rw [h3.pc, vget_append (by omega), vget_append (by omega)]
    have e3 : vget st1.pc w = .ok (st1.pc[w]'(by omega)) := vget_of_lt (by omega)
    have e4 : vget st1.pc u = .ok (st1.pc[u]'(by omega)) := vget_of_lt (by omega)
    rw [e3, res_bind_ok, e4, res_bind_ok, vset_of_lt (by omega), res_bind_ok] at hf
    rw [e3, res_bind_ok, e4, res_bind_ok, vset_append (by omega), res_bind_ok]
    cases hP : vget st1.P w with
    | error f => rw [hP] at hf; cases hf
    | ok l =>
      rw [hP, res_bind_ok] at hf
      cases hP' : vset st1.P w (l ++ [u]) with
      | error f => rw [hP'] at hf; cases hf
      | ok P =>
        rw [hP', res_bind_ok] at hf
        cases hf
        exact ⟨_, rfl, ⟨h3.le, h3.Q, rfl, rfl, by simpa using l1⟩, h4⟩
  · rename_i hc
    rw [if_neg hc] at hf
    cases hf
    exact ⟨v1, rfl, h3, h4⟩

theorem fwd_gives (M : Nat) {g : Rows α} (hg : InRange g) {s : Nat} (hs : s < g.length) (v : Fwd) (h : fwdInit M g.length s = .ok v) :
    Run.Gives (Run.loop (fwdBody M g) v) fun r => ∃ st done D par G Pf, st.Q = [] ∧ FInv M g s st done D par G Pf ∧ Match g.length r st := by
  refine Run.gives_loop (fun v => ∃ st done D par G Pf, FInv M g s st done D par G Pf ∧ Match g.length v st ∧ v.it = done.length) (fun v => g.length - v.it) ?_ v ?_
  · rintro v ⟨st, done, D, par, G, Pf, hi, hm, hit⟩
    have hinv := hi.inv
    unfold fwdBody
    cases hv : v.visit[v.it]? with
    | none =>
      refine Or.inr ⟨v, rfl, st, done, D, par, G, Pf, ?_, hi, hm⟩
      rw [← hm.Q, List.drop_eq_nil_iff]
      exact List.getElem?_eq_none_iff.1 hv
    | some u =>
      left
      have hlt : v.it < v.visit.length := (List.getElem?_eq_some_iff.1 hv).1
      have hdrop := List.drop_eq_getElem_cons hlt
      have hq : st.Q = u :: v.visit.drop (v.it + 1) := by
        rw [← hm.Q, hdrop, (List.getElem?_eq_some_iff.1 hv).2]
      rw [hq] at hinv
      have hun : u < g.length := hinv.lt hg hs (v := u) (by simp)
      simp only []
      rw [vget_of_lt hun, res_bind_ok]
      have hrow : (g[u]'hun).map Prod.fst = nbrs g u := by
        rw [nbrs, List.getD_eq_getElem?_getD, List.getElem?_eq_getElem hun]; rfl
      obtain ⟨v', hf, hI⟩ := foldlM_list_inv (f := fwdEdge M u) (l := g[u]'hun)
        (fun pre (y : Fwd) => ∃ (x : Brandes.Fwd) (D' par' : Nat → Option Nat) (G' : Nat → Nat) (Pf' : Nat → List Nat), Mid g s done u (pre.map Prod.fst) x.Q D' par' ∧
          Cnt g s done u (pre.map Prod.fst) D' G' Pf' ∧ Rep M g.length x D' G' Pf' ∧ x.S = u :: st.S ∧ MatchU g.length u y x ∧ y.it = v.it)
        (s := v)
        ⟨{ st with Q := v.visit.drop (v.it + 1), S := u :: st.S }, D, par, G, Pf, hinv.start, hi.cnt.start u, ⟨hi.rep.d, hi.rep.pc, hi.rep.P⟩, rfl,
          ⟨hlt, by rw [hm.Q, hq], hm.d, hm.pc, hm.len⟩, rfl⟩ (by
          rintro pre x post hl y ⟨z, D', par', G', Pf', a1, a2, a3, a4, a5, a6⟩
          have hx : Edge g u x.1 := by rw [Edge, ← hrow, hl]; simp
          obtain ⟨st', D2, par2, G2, Pf2, b1, b2, b3, b4, b5⟩ := Brandes.fwdEdge_step M hg a1 a2 a3 (e := x) hx
          obtain ⟨v', c1, c2, c3⟩ := fwdEdge_match a5 hun (hg _ _ hx) a3.d b1
          exact ⟨v', c1, st', D2, par2, G2, Pf2, by rw [List.map_append]; exact b2, by rw [List.map_append]; exact b3, b4, b5.trans a4, c2, c3.trans a6⟩)
      rw [hf, res_bind_ok]
      obtain ⟨x, D', par', G', Pf', a1, a2, a3, a4, a5, a6⟩ := hI
      rw [hrow] at a1 a2
      have hud : u ∉ done := by
        have := a1.nodup
        rw [List.nodup_append] at this
        exact fun hh => this.2.2 u hh u (by simp) rfl
      refine ⟨_, rfl, ⟨x, done ++ [u], D', par', G', Pf', ⟨?_, a1.finish, a2.finish hud, a3⟩, ⟨a5.le, ?_, a5.d, a5.pc, a5.len⟩, ?_⟩, ?_⟩
      · rw [a4, hi.S]; simp
      · simp only []
        have := congrArg (List.drop 1) a5.Q
        rw [List.drop_drop] at this
        simpa using this
      · simp only [List.length_append, List.length_cons, List.length_nil]
        omega
      · have := hinv.length_le hg hs
        simp only [List.length_append, List.length_cons] at this
        simp only []
        omega
  · unfold fwdInit at h
    obtain ⟨e1, e2⟩ := (Vec.replicate g.length 0).vset hs (1 % M)
    obtain ⟨e3, e4⟩ := (Vec.replicate g.length (-1 : Int)).vset hs 0
    have e5 : List.replicate (g.length + 1) 0 = List.replicate g.length 0 ++ [0] := List.replicate_succ'
    rw [e3, res_bind_ok, e5, vset_append (by simpa using hs), res_bind_ok] at h
    cases h
    refine ⟨⟨[s], [], (List.replicate g.length 0).set s (1 % M), (List.replicate g.length (-1)).set s 0, List.replicate g.length []⟩, [], _, _,
      fun v => if v = s then 1 else 0, fun _ => [], ⟨rfl, Inv.init g s, ⟨?_, ?_⟩, ?_, ?_, Vec.replicate _ _⟩, ⟨by simp, rfl, rfl, rfl, by simp⟩, rfl⟩
    · intro v w; simp
    · intro w; simp
    · refine e4.congr fun v _ => ?_
      by_cases c : v = s <;> simp [c, stored, upd]
    · refine e2.congr fun v _ => ?_
      by_cases c : v = s <;> simp [c]

/-! ## Buckets -/

/-- The vertices at distance `k`, in order. -/
def layer (D : Nat → Option Nat) (n k : Nat) : List Nat := (List.range n).filter fun v => D v = some k

theorem buckets_ok {n : Nat} {d : List Int} {D : Nat → Option Nat} (hd : Vec n (stored D) d) :
    ∃ b, (List.range n).foldlM (bucket d) [] = .ok b ∧ (∀ k, b.getD k [] = layer D n k) := by
  obtain ⟨b, h1, h2⟩ := foldlM_list_inv (f := bucket d) (l := List.range n)
    (fun pre (b : List (List Nat)) => ∀ k, b.getD k [] = pre.filter fun v => D v = some k) (s := []) (by simp) (by
      intro pre i post hl b hb
      have hi : i < n := by
        have : i ∈ List.range n := by rw [hl]; simp
        simpa using this
      unfold bucket
      rw [hd.vget hi, res_bind_ok]
      cases hD : D i with
      | none =>
        rw [if_neg (by unfold stored; rw [hD]; simp)]
        refine ⟨b, rfl, fun k => ?_⟩
        rw [hb k, List.filter_append]
        simp [hD]
      | some x =>
        have hx : stored D i = (x : Int) := by unfold stored; rw [hD]
        rw [if_pos (by rw [hx]; omega), hx]
        obtain ⟨b', hb', hlen, hk⟩ : ∃ b', (if (b.length : Int) ≤ (x : Int) then b ++ List.replicate ((x : Int).toNat + 1 - b.length) [] else b) = b' ∧ x < b'.length ∧
            ∀ k, b'.getD k [] = b.getD k [] := by
          refine ⟨_, rfl, ?_, ?_⟩
          · split
            · simp; omega
            · omega
          · intro k
            split
            · rw [List.getD_eq_getElem?_getD, List.getD_eq_getElem?_getD, List.getElem?_append]
              split
              · rfl
              · rename_i hkl
                rw [List.getElem?_eq_none (l := b) (by omega)]
                rw [List.getElem?_replicate]
                split <;> rfl
            · rfl
        rw [hb']
        simp only [Int.toNat_natCast]
        rw [vget_of_lt hlen, res_bind_ok, vset_of_lt hlen]
        refine ⟨_, rfl, fun k => ?_⟩
        rw [List.getD_eq_getElem?_getD, List.getElem?_set, List.filter_append]
        by_cases hkx : x = k
        · subst hkx
          rw [if_pos rfl, if_pos hlen]
          have := hk x
          rw [hb x, List.getD_eq_getElem?_getD, List.getElem?_eq_getElem hlen] at this
          simp only [Option.getD_some] at this ⊢
          rw [this]
          simp [hD]
        · rw [if_neg hkx, ← List.getD_eq_getElem?_getD, hk k, hb k]
          simp [hD, hkx])
  exact ⟨b, h1, h2⟩

/-! ## The way back -/

/-- The arguments of the parallel routine for which the recursion is proved. -/
def args (g : Rows α) : BrandesPar.Args α := { g := g, bins := 1, inf := 0, M := 0, dv := .exact }

section
variable {g : Rows α} {s M : Nat} {D : Nat → Option Nat} {st : Fwd}

theorem backRow_ok (hg : InRange g) (hs : s < g.length) (hD : ∀ v d, D v = some d ↔ IsDist g s v d) (hd : Vec g.length (stored D) st.d)
    (hpc : ∀ v j, D v = some j → vget st.pc v = .ok (nw g j s v)) {u k : Nat} (hu : D u = some k) {f : Nat → ℚ} (hf : ∀ v, D v = some (k + 1) → f v = dependency g s v)
    (hfu : f u = 0) {delta : List ℚ} (hdel : Vec g.length f delta) (row : List (Nat × α)) (hrow : ∀ e ∈ row, e.1 < g.length) :
    ∃ delta', row.foldlM (backEdge st u) delta = .ok delta' ∧
      Vec g.length (fun v => if v = u then (row.map fun e => BrandesPar.part (args g) s D (dependency g s) u k e.1).sum else f v) delta' := by
  have hun : u < g.length := ((hD u k).1 hu).1.lt hg hs
  have hsu : stored D u = (k : Int) := by unfold stored; rw [hu]
  obtain ⟨delta', h1, h2⟩ := foldlM_list_inv (f := backEdge st u) (l := row)
    (fun pre (x : List ℚ) => Vec g.length (fun v => if v = u then (pre.map fun e => BrandesPar.part (args g) s D (dependency g s) u k e.1).sum else f v) x) (s := delta)
    (hdel.congr fun v _ => by by_cases c : v = u <;> simp [c, hfu]) (by
      intro pre e post hl x hx
      have he := hrow e (by rw [hl]; simp)
      unfold backEdge
      rw [hd.vget he, res_bind_ok, hd.vget hun, res_bind_ok]
      by_cases c : D e.1 = some (k + 1)
      · have hne : e.1 ≠ u := by
          intro h
          rw [h, hu] at c
          cases c
        have hse : stored D e.1 = ((k + 1 : Nat) : Int) := by unfold stored; rw [c]
        have hpos : nw g (k + 1) s e.1 ≠ 0 := by
          have := nw_dist_ne hg ((hD _ _).1 c)
          exact_mod_cast this
        rw [if_pos (by rw [hse, hsu]; push_cast; rfl), hpc u k hu, res_bind_ok, hpc _ _ c, res_bind_ok, quot, if_neg hpos, res_bind_ok, hx.vget he, res_bind_ok,
          hx.vget hun, res_bind_ok]
        obtain ⟨e1, e2⟩ := hx.vset hun ((pre.map fun e => BrandesPar.part (args g) s D (dependency g s) u k e.1).sum +
          (nw g k s u : ℚ) / (nw g (k + 1) s e.1 : ℚ) * (1 + f e.1))
        simp only [if_pos, if_neg hne]
        refine ⟨_, e1, e2.congr fun v _ => ?_⟩
        by_cases cv : v = u
        · rw [if_pos cv, if_pos cv, List.map_append, List.sum_append]
          simp [BrandesPar.part, c, BrandesPar.quotQ, args, hf _ c]
        · rw [if_neg cv, if_neg cv, if_neg cv]
      · have : ¬ stored D e.1 = stored D u + 1 := by
          rw [Brandes.stored_eq hu]
          exact c
        rw [if_neg this]
        refine ⟨x, rfl, hx.congr fun v _ => ?_⟩
        by_cases cv : v = u
        · rw [if_pos cv, if_pos cv, List.map_append, List.sum_append]
          simp [BrandesPar.part, c]
        · rw [if_neg cv, if_neg cv])
  exact ⟨delta', h1, h2⟩

/-- The state on the way back, the vertices `done` having been dealt with. -/
def Back (g : Rows α) (s : Nat) (c0 : Nat → ℚ) (done : List Nat) (x : List ℚ × List ℚ) : Prop :=
  Vec g.length (fun v => if v ∈ done then dependency g s v else 0) x.1 ∧ Vec g.length (fun v => c0 v + if v ∈ done then dependency g s v else 0) x.2

theorem backVertex_ok (hg : InRange g) (hs : s < g.length) (hD : ∀ v d, D v = some d ↔ IsDist g s v d) (hd : Vec g.length (stored D) st.d)
    (hpc : ∀ v j, D v = some j → vget st.pc v = .ok (nw g j s v)) {u k : Nat} (hu : D u = some k) {c0 : Nat → ℚ} {done : List Nat} (hdone : ∀ v, D v = some (k + 1) → v ∈ done)
    (hud : u ∉ done) {x : List ℚ × List ℚ} (hx : Back g s c0 done x) : ∃ x', backVertex g st x u = .ok x' ∧ Back g s c0 (done ++ [u]) x' := by
  have hun : u < g.length := ((hD u k).1 hu).1.lt hg hs
  have hrow : (g[u]'hun).map Prod.fst = nbrs g u := by
    rw [nbrs, List.getD_eq_getElem?_getD, List.getElem?_eq_getElem hun]; rfl
  obtain ⟨delta, h1, h2⟩ := backRow_ok hg hs hD hd hpc hu (fun v hv => if_pos (hdone v hv)) (if_neg hud) hx.1 (g[u]'hun) (fun e he => hg u e.1 (by
    rw [Edge, ← hrow]
    exact List.mem_map_of_mem he))
  have hsum : ((g[u]'hun).map fun e => BrandesPar.part (args g) s D (dependency g s) u k e.1).sum = dependency g s u := by
    have := BrandesPar.rec_exact (c := args g) (s := s) (D := D) hg hs hD rfl u k hu
    show _ = _
    rw [show dependency g s u = dependency (args g).g s u from rfl, this]
    show _ = ((nbrs g u).map _).sum
    rw [← hrow, List.map_map]
    rfl
  unfold backVertex
  rw [vget_of_lt hun, res_bind_ok, h1, res_bind_ok, h2.vget hun, res_bind_ok, hx.2.vget hun, res_bind_ok]
  simp only [if_pos, if_neg hud, hsum]
  obtain ⟨e1, e2⟩ := hx.2.vset hun (c0 u + 0 + dependency g s u)
  rw [e1, res_bind_ok]
  refine ⟨_, rfl, h2.congr fun v _ => ?_, e2.congr fun v _ => ?_⟩
  · by_cases cv : v = u
    · subst cv
      simp [hsum]
    · simp [cv]
  · by_cases cv : v = u
    · subst cv
      simp
    · simp [cv]

theorem backLayer_ok (hg : InRange g) (hs : s < g.length) (hD : ∀ v d, D v = some d ↔ IsDist g s v d) (hd : Vec g.length (stored D) st.d)
    (hpc : ∀ v j, D v = some j → vget st.pc v = .ok (nw g j s v)) {k : Nat} {c0 : Nat → ℚ} {l : List Nat} (hl : ∀ u ∈ l, D u = some k) (hn : l.Nodup) {done : List Nat}
    (hdone : ∀ v, D v = some (k + 1) → v ∈ done) (hnd : ∀ v ∈ done, D v ≠ some k) {x : List ℚ × List ℚ} (hx : Back g s c0 done x) :
    ∃ x', l.foldlM (backVertex g st) x = .ok x' ∧ Back g s c0 (done ++ l) x' := by
  obtain ⟨x', h1, h2⟩ := foldlM_list_inv (f := backVertex g st) (l := l) (fun pre (y : List ℚ × List ℚ) => Back g s c0 (done ++ pre) y) (s := x) (by simpa using hx) (by
    intro pre u post hl' y hy
    have hu := hl u (by rw [hl']; simp)
    obtain ⟨x', h1, h2⟩ := backVertex_ok hg hs hD hd hpc hu (done := done ++ pre) (fun v hv => by simp [hdone v hv]) (by
      intro hmem
      rcases List.mem_append.1 hmem with h | h
      · exact hnd u h hu
      · rw [hl'] at hn
        exact (List.nodup_append.1 hn).2.2 u h u (by simp) rfl) hy
    exact ⟨x', h1, by rw [← List.append_assoc]; exact h2⟩)
  exact ⟨x', h1, h2⟩

theorem back_ok (hg : InRange g) (hs : s < g.length) (hD : ∀ v d, D v = some d ↔ IsDist g s v d) (hd : Vec g.length (stored D) st.d)
    (hpc : ∀ v j, D v = some j → vget st.pc v = .ok (nw g j s v)) {b : List (List Nat)} (hb : ∀ k, b.getD k [] = layer D g.length k) {sc : List ℚ} {c0 : Nat → ℚ}
    (hc : Vec g.length c0 sc) :
    ∃ x, b.reverse.foldlM (fun x l => l.foldlM (backVertex g st) x) (List.replicate g.length 0, sc) = .ok x ∧ Vec g.length (fun v => c0 v + dependency g s v) x.2 := by
  have hmem : ∀ (v k : Nat), v ∈ b.getD k [] ↔ D v = some k := by
    intro v k
    rw [hb k, layer, List.mem_filter]
    constructor
    · intro h; simpa using h.2
    · intro h; exact ⟨List.mem_range.2 (((hD v k).1 h).1.lt hg hs), by simpa using h⟩
  have hin : ∀ (v k : Nat), D v = some k → k < b.length := by
    intro v k h
    by_contra hk
    have := (hmem v k).2 h
    rw [List.getD_eq_getElem?_getD, List.getElem?_eq_none (by omega)] at this
    simp at this
  obtain ⟨x, h1, h2⟩ := foldlM_list_inv (f := fun (x : List ℚ × List ℚ) (l : List Nat) => l.foldlM (backVertex g st) x) (l := b.reverse)
    (fun pre (y : List ℚ × List ℚ) => ∃ done, (∀ v, v ∈ done ↔ ∃ j, D v = some j ∧ b.length - pre.length ≤ j) ∧ Back g s c0 done y) (s := (List.replicate g.length 0, sc))
    ⟨[], fun v => by
      simp only [List.not_mem_nil, List.length_nil, Nat.sub_zero, false_iff]
      rintro ⟨j, h1, h2⟩
      have := hin v j h1
      omega, (Vec.replicate g.length (0 : ℚ)).congr fun v _ => by simp, hc.congr fun v _ => by simp⟩ (by
      rintro pre l post hl y ⟨done, hdn, hy⟩
      have hlen : b.length = pre.length + 1 + post.length := by
        have := congrArg List.length hl
        simp at this
        omega
      have hbl : l = b.getD post.length [] := by
        have e : b = post.reverse ++ l :: pre.reverse := by
          have := congrArg List.reverse hl
          rw [List.reverse_reverse, List.reverse_append, List.reverse_cons] at this
          simpa using this
        conv_rhs => rw [e]
        rw [List.getD_eq_getElem?_getD, List.getElem?_append_right (by simp)]
        simp
      obtain ⟨x', h1, h2⟩ := backLayer_ok hg hs hD hd hpc (k := post.length) (l := l) (fun u hu => by
        rw [hbl] at hu
        exact (hmem _ _).1 hu) (by
        rw [hbl, hb]
        exact List.nodup_range.filter _) (done := done) (fun v hv => (hdn v).2 ⟨_, hv, by omega⟩) (fun v hv e => by
        obtain ⟨j, h3, h4⟩ := (hdn v).1 hv
        rw [e] at h3
        cases h3
        omega) hy
      refine ⟨x', h1, done ++ l, fun v => ?_, h2⟩
      rw [List.mem_append, hdn, hbl, hmem]
      simp only [List.length_append, List.length_cons, List.length_nil]
      constructor
      · rintro (⟨j, h3, h4⟩ | h3)
        · exact ⟨j, h3, by omega⟩
        · exact ⟨_, h3, by omega⟩
      · rintro ⟨j, h3, h4⟩
        by_cases hj : j = post.length
        · subst hj; exact Or.inr h3
        · exact Or.inl ⟨j, h3, by omega⟩)
  obtain ⟨done, h3, h4⟩ := h2
  refine ⟨x, h1, h4.2.congr fun v _ => ?_⟩
  cases hv : D v with
  | none =>
    have hdep : dependency g s v = 0 := dependency_unreachable hg hs hD hv
    simp [hdep]
  | some j => rw [if_pos ((h3 v).2 ⟨j, hv, by simp⟩)]

end

/-- One source adds its dependencies. -/
theorem source_gives (M : Nat) {g : Rows α} (hg : InRange g) {s : Nat} (hs : s < g.length) (hfit : ∀ t < g.length, (shortestPaths g s t).length < M) {sc : List ℚ} {c0 : Nat → ℚ}
    (hc : Vec g.length c0 sc) : Run.Gives (source M g sc s) (Vec g.length fun v => c0 v + dependency g s v) := by
  unfold source
  obtain ⟨v, hv⟩ : ∃ v, fwdInit M g.length s = .ok v := by
    unfold fwdInit
    rw [vset_of_lt (by simpa using hs), res_bind_ok, vset_of_lt (by simp; omega), res_bind_ok]
    exact ⟨_, rfl⟩
  refine (Run.gives_lift hv (Q := (· = v)) rfl).bind ?_
  rintro _ rfl
  refine (fwd_gives M hg hs _ hv).bind ?_
  rintro r ⟨st, done, D, par, G, Pf, hQ, hF, hm⟩
  have hinv := hF.inv
  rw [hQ] at hinv
  have hdist := hinv.dist
  have hd : Vec g.length (stored D) r.d := by rw [hm.d]; exact hF.rep.d
  have hpc : ∀ v j, D v = some j → vget r.pc v = .ok (nw g j s v) := by
    intro v j hj
    have hd' := (hdist v j).1 hj
    have hvn := hd'.1.lt hg hs
    rw [hm.pc, vget_append (by rw [hm.len]; exact hvn), hF.rep.pc.vget hvn, hF.count hg hQ j v hj, Nat.mod_eq_of_lt]
    rw [Brandes.nw_eq_length hg hs hd']
    exact hfit v hvn
  obtain ⟨b, hb1, hb2⟩ := buckets_ok hd
  refine (Run.gives_lift hb1 (Q := (· = b)) rfl).bind ?_
  rintro _ rfl
  obtain ⟨x, hx1, hx2⟩ := back_ok hg hs hdist hd hpc hb2 hc
  refine (Run.gives_lift hx1 (Q := (· = x)) rfl).bind ?_
  rintro _ rfl
  exact Run.gives_pure hx2

end NW.BcVerify
