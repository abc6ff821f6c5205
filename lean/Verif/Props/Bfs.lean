import Verif.Model.Bfs
import Verif.Lemmas.Fifo
import Verif.Lemmas.ListRes

/-! # C22, C42, C54, C55: breadth-first search -/

namespace NW.Bfs
open Spec Fifo

variable {α : Type}

/-- A parent array as a partial map: `inf` and positions outside mean "no parent". -/
def parentOf (inf : Nat) (p : List Nat) (v : Nat) : Option Nat :=
  match p[v]? with
  | some x => if x = inf then none else some x
  | none => none

theorem vget_row {g : Rows α} {u : Nat} (h : u < g.length) : vget g u = .ok (g.getD u []) := by
  rw [vget_of_lt h, List.getD_eq_getElem?_getD, List.getElem?_eq_getElem h]; rfl

theorem mem_row_edge {g : Rows α} {u : Nat} {x : Nat × α} (h : x ∈ g.getD u []) : Edge g u x.1 :=
  List.mem_map_of_mem h

/-! ## C22 -/

theorem bfsEdge_step (inf : Nat) (g : Rows α) (hg : InRange g) (root : Nat) (hr : root < g.length) (hinf : g.length ≤ inf)
    {done : List Nat} {u : Nat} {sc rest : List Nat} {D par : Nat → Option Nat} {l : Nat} {st : St} {x : Nat × α}
    (hm : Mid g root done u sc (rest ++ st.q2) D par) (hD : Arr inf g.length D st.level) (hP : Arr inf g.length par st.parents)
    (hu : D u = some l) (h2 : ∀ v ∈ st.q2, D v = some (l + 1)) (hx : Edge g u x.1) (h1 : ∀ v ∈ rest, D v = some l) :
    ∃ st' D' par', bfsEdge inf (l + 1) u st x = .ok st' ∧ Mid g root done u (sc ++ [x.1]) (rest ++ st'.q2) D' par' ∧
      Arr inf g.length D' st'.level ∧ Arr inf g.length par' st'.parents ∧ D' u = some l ∧ (∀ v ∈ st'.q2, D' v = some (l + 1)) ∧
      (∀ v ∈ rest, D' v = some l) := by
  have hxn := hg u x.1 hx
  unfold bfsEdge
  have hget : vget st.level x.1 = .ok ((D x.1).getD inf) := vget_eq_ok.2 (hD.2 _ hxn)
  rw [hget, res_bind_ok]
  cases hc : D x.1 with
  | some d =>
    have hlt := hm.D_lt hg hr hc
    rw [if_neg (by simp; omega)]
    exact ⟨st, D, par, rfl, hm.seen hc, hD, hP, hu, h2, h1⟩
  | none =>
    have hm' := hm.discover hc hx hu
    have hlt := hm'.D_lt hg hr (v := x.1) (d := l + 1) (by simp [upd])
    have hmod : (l + 1) % (inf + 1) = l + 1 := Nat.mod_eq_of_lt (by omega)
    rw [if_pos (by simp), hmod, vset_of_lt (by rw [hD.1]; exact hxn), res_bind_ok, vset_of_lt (by rw [hP.1]; exact hxn), res_bind_ok]
    have hne : ∀ v d, D v = some d → v ≠ x.1 := by rintro v d hv rfl; rw [hc] at hv; cases hv
    refine ⟨_, upd D x.1 (l + 1), upd par x.1 u, rfl, ?_, hD.set hxn _, hP.set hxn _, ?_, ?_, ?_⟩
    · rw [← List.append_assoc]; exact hm'
    · simp [upd, hne u l hu, hu]
    · intro v hv
      by_cases c : v = x.1
      · simp [upd, c]
      · simp only [List.mem_append, List.mem_singleton] at hv
        rcases hv with hv | hv
        · simp [upd, c, h2 v hv]
        · exact absurd hv c
    · intro v hv
      simp [upd, hne v l (h1 v hv), h1 v hv]

theorem bfsVertex_step (inf : Nat) (g : Rows α) (hg : InRange g) (root : Nat) (hr : root < g.length) (hinf : g.length ≤ inf)
    {done : List Nat} {u : Nat} {rest : List Nat} {D par : Nat → Option Nat} {l : Nat} {st : St}
    (hm : Inv g root done (u :: rest ++ st.q2) D par) (hD : Arr inf g.length D st.level) (hP : Arr inf g.length par st.parents)
    (h1 : ∀ v ∈ u :: rest, D v = some l) (h2 : ∀ v ∈ st.q2, D v = some (l + 1)) :
    ∃ st' D' par', bfsVertex inf g (l + 1) st u = .ok st' ∧ Inv g root (done ++ [u]) (rest ++ st'.q2) D' par' ∧
      Arr inf g.length D' st'.level ∧ Arr inf g.length par' st'.parents ∧ (∀ v ∈ rest, D' v = some l) ∧
      (∀ v ∈ st'.q2, D' v = some (l + 1)) := by
  have hun : u < g.length := hm.lt hg hr (by simp)
  unfold bfsVertex
  rw [vget_row hun, res_bind_ok]
  obtain ⟨st', he, D', par', k1, k2, k3, k4, k5, k6⟩ := foldlM_list_inv (l := g.getD u []) (f := bfsEdge inf (l + 1) u) (s := st)
    (fun pre st => ∃ D par, Mid g root done u (pre.map Prod.fst) (rest ++ st.q2) D par ∧ Arr inf g.length D st.level ∧
      Arr inf g.length par st.parents ∧ D u = some l ∧ (∀ v ∈ st.q2, D v = some (l + 1)) ∧ ∀ v ∈ rest, D v = some l)
    ⟨D, par, hm.start, hD, hP, h1 u (by simp), h2, fun v hv => h1 v (by simp [hv])⟩
    (by
      rintro pre x post hpx st ⟨D, par, a1, a2, a3, a4, a5, a6⟩
      obtain ⟨st', D', par', b0, b1⟩ := bfsEdge_step inf g hg root hr hinf a1 a2 a3 a4 a5
        (mem_row_edge (x := x) (by rw [hpx]; simp)) a6
      exact ⟨st', b0, D', par', by simpa using b1⟩)
  exact ⟨st', D', par', he, k1.finish, k2, k3, k6, k5⟩

/-- C22. For every graph with in-range neighbours and every root, `bfs` terminates without reading or writing outside its arrays, and
the parent array it returns is a breadth-first search tree: a vertex has a parent exactly when it is reachable, every parent link is an
edge that leads one step away from the root. -/
theorem bfs_correct (inf : Nat) (g : Rows α) (hg : InRange g) (root : Nat) (hr : root < g.length) (hinf : g.length ≤ inf) :
    ∃ p, Run inf g root (.ok p) ∧ p.length = g.length ∧ BfsTree g root (parentOf inf p) := by
  unfold Run bfsInit
  rw [vset_of_lt (by simpa using hr), res_bind_ok, vset_of_lt (by simpa using hr), res_bind_ok]
  show ∃ p, Loop _ _ _ ∧ _
  refine Loop.of_rank (fun k s => ∃ done D par l, k + done.length = g.length ∧ Inv g root done s.1 D par ∧ Arr inf g.length D s.2.1 ∧
      Arr inf g.length par s.2.2.1 ∧ s.2.2.2 = l + 1 ∧ ∀ v ∈ s.1, D v = some l) _ ?_ (k := g.length)
    ⟨[], _, _, 0, by simp, Inv.init g root, (Arr.replicate inf _).set hr 0, (Arr.replicate inf _).set hr root, rfl, ?_⟩
  · rintro k ⟨q1, level, parents, lvl⟩ ⟨done, D, par, l, hk, hI, hD, hP, hl, hq⟩
    simp only at hI hD hP hl hq
    subst hl
    by_cases c : q1 = []
    · left
      subst c
      refine ⟨parents, by simp [bfsBody], hP.1, ?_⟩
      have hpar : parentOf inf parents = par := by
        funext v
        unfold parentOf
        rcases Nat.lt_or_ge v g.length with hv | hv
        · rw [hP.2 v hv]
          simp only
          cases hpv : par v with
          | none => simp
          | some p =>
            have := hI.par_lt hg hr hpv
            simp; omega
        · rw [List.getElem?_eq_none (by rw [hP.1]; exact hv)]
          simp only
          cases hpv : par v with
          | none => rfl
          | some p =>
            obtain ⟨d, hd⟩ := (hI.parD v).1 ⟨p, hpv⟩
            have := hI.lt hg hr ((hI.disc v).2 ⟨d, hd⟩)
            omega
      rw [hpar]
      exact hI.tree_of
    · right
      have hfold := foldlM_list_inv (l := q1) (f := bfsVertex inf g (l + 1)) (s := (⟨[], level, parents⟩ : St))
        (fun pre st => ∃ rest D par, q1 = pre ++ rest ∧ Inv g root (done ++ pre) (rest ++ st.q2) D par ∧
          Arr inf g.length D st.level ∧ Arr inf g.length par st.parents ∧ (∀ v ∈ rest, D v = some l) ∧ ∀ v ∈ st.q2, D v = some (l + 1))
        ⟨q1, D, par, rfl, by simpa using hI, hD, hP, hq, by simp⟩
        (by
          rintro pre x post hpx st ⟨rest, D, par, a0, a1, a2, a3, a4, a5⟩
          have : rest = x :: post := by
            rw [hpx] at a0; exact (List.append_cancel_left a0).symm
          subst this
          obtain ⟨st', D', par', b0, b1, b2, b3, b4, b5⟩ := bfsVertex_step inf g hg root hr hinf a1 a2 a3 a4 a5
          exact ⟨st', b0, post, D', par', by simp [hpx], by rw [← List.append_assoc]; exact b1, b2, b3, b4, b5⟩)
      obtain ⟨st', he, rest, D', par', a0, a1, a2, a3, a4, a5⟩ := hfold
      have : rest = [] := by
        have := congrArg List.length a0
        simp at this; exact this
      subst this
      have hlen := a1.length_le hg hr
      simp only [List.length_append] at hlen
      have hpos : 0 < q1.length := List.length_pos_iff.2 c
      refine ⟨(st'.q2, st'.level, st'.parents, l + 1 + 1), g.length - (done ++ q1).length, ?_, ?_, done ++ q1, D', par', l + 1, ?_, a1, a2, a3, rfl, a5⟩
      · simp [bfsBody, c, he]
      · simp only [List.length_append]; omega
      · simp only [List.length_append]; omega
  · intro v hv
    simp at hv; subst hv
    simp [upd]

/-- C22, the last clause: following the parents from a reachable vertex leads to the root in exactly as many steps as its distance. -/
theorem bfs_parents_lead_to_root (inf : Nat) (g : Rows α) (hg : InRange g) (root : Nat) (hr : root < g.length) (hinf : g.length ≤ inf)
    (p : List Nat) (hp : Run inf g root (.ok p)) (v d : Nat) (hd : IsDist g root v d) :
    follow (parentOf inf p) d v = some root := by
  obtain ⟨p', h1, _, h2⟩ := bfs_correct inf g hg root hr hinf
  have : p' = p := by
    unfold Run at h1 hp
    split at h1
    · rename_i s hs
      rw [hs] at hp
      have := Loop.det h1 hp
      cases this; rfl
    · cases h1
  subst this
  exact h2.follow_root hd

/-! ## C42 -/

theorem verEdge_step (inf : Nat) (g : Rows α) (hg : InRange g) (root : Nat) (hr : root < g.length) (hinf : g.length ≤ inf)
    {done : List Nat} {u : Nat} {sc q : List Nat} {D par : Nat → Option Nat} {st : List Nat × List Nat} {x : Nat × α}
    (hm : Mid g root done u sc q D par) (hD : Arr inf g.length D st.1) (hq : st.2 = done ++ u :: q) (hx : Edge g u x.1) :
    ∃ st' q' D' par', verEdge inf u st x = .ok st' ∧ Mid g root done u (sc ++ [x.1]) q' D' par' ∧
      Arr inf g.length D' st'.1 ∧ st'.2 = done ++ u :: q' := by
  have hxn := hg u x.1 hx
  unfold verEdge
  have hget : vget st.1 x.1 = .ok ((D x.1).getD inf) := vget_eq_ok.2 (hD.2 _ hxn)
  rw [hget, res_bind_ok]
  obtain ⟨du, hu⟩ := hm.self
  cases hc : D x.1 with
  | some d =>
    have hlt := hm.D_lt hg hr hc
    rw [if_neg (by simp; omega)]
    exact ⟨st, q, D, par, rfl, hm.seen hc, hD, hq⟩
  | none =>
    have hm' := hm.discover hc hx hu
    have hlt := hm'.D_lt hg hr (v := x.1) (d := du + 1) (by simp [upd])
    have hmod : (du + 1) % (inf + 1) = du + 1 := Nat.mod_eq_of_lt (by omega)
    have hun : u < g.length := hm.lt hg hr (by simp)
    have hgetu : vget st.1 u = .ok du := by
      rw [vget_eq_ok.2 (hD.2 _ hun), hu]; rfl
    rw [if_pos (by simp), hgetu, res_bind_ok, hmod, vset_of_lt (by rw [hD.1]; exact hxn), res_bind_ok]
    exact ⟨_, _, _, _, rfl, hm', hD.set hxn _, by simp [hq]⟩

/-- The exploration of the verifier computes the distances. -/
theorem verifier_explores (inf : Nat) (g : Rows α) (hg : InRange g) (root : Nat) (hr : root < g.length) (hinf : g.length ≤ inf) :
    ∃ depth, Loop (verBody inf g) (0, (List.replicate g.length inf).set root 0, [root]) (.ok depth) ∧
      ∃ done D par, Inv g root done [] D par ∧ Arr inf g.length D depth ∧ ∀ v d, D v = some d → d < g.length := by
  refine Loop.of_rank (fun k s => ∃ done q D par, k + done.length = g.length ∧ s.1 = done.length ∧ s.2.2 = done ++ q ∧
      Inv g root done q D par ∧ Arr inf g.length D s.2.1 ∧ ∀ v d, D v = some d → d < g.length) _ ?_ (k := g.length)
    ⟨[], [root], _, _, by simp, rfl, rfl, Inv.init g root, (Arr.replicate inf _).set hr 0, ?_⟩
  swap
  · intro v d hd
    have := (Inv.init g root).bound v d hd
    simp at this; omega
  rintro k ⟨it, depth, tv⟩ ⟨done, q, D, par, hk, h1, h2, hI, hD, hsm⟩
  simp only at h1 h2 hD
  subst h1 h2
  cases q with
  | nil =>
    left
    exact ⟨depth, by simp [verBody], done, D, par, hI, hD, hsm⟩
  | cons u q =>
    right
    have hun : u < g.length := hI.lt hg hr (by simp)
    obtain ⟨st', he, q', D', par', a1, a2, a3⟩ := foldlM_list_inv (l := g.getD u []) (f := verEdge inf u) (s := (depth, done ++ u :: q))
      (fun pre st => ∃ q' D par, Mid g root done u (pre.map Prod.fst) q' D par ∧ Arr inf g.length D st.1 ∧ st.2 = done ++ u :: q')
      ⟨q, D, par, hI.start, hD, rfl⟩
      (by
        rintro pre x post hpx st ⟨q', D, par, a1, a2, a3⟩
        obtain ⟨st', q'', D', par', b0, b1⟩ := verEdge_step inf g hg root hr hinf a1 a2 a3
          (mem_row_edge (x := x) (by rw [hpx]; simp))
        exact ⟨st', b0, q'', D', par', by simpa using b1⟩)
    have hlen := a1.length_le hg hr
    have hget : vget (done ++ u :: q) done.length = .ok u := by
      rw [vget_eq_ok]; simp
    refine ⟨(done.length + 1, st'.1, st'.2), k - 1, ?_, ?_, done ++ [u], q', D', par', ?_, by simp, by simp [a3], a1.finish, a2,
      fun v d hd => a1.D_lt hg hr hd⟩
    · have hne : ¬ done.length = (done ++ u :: q).length := by simp
      simp only [verBody, if_neg hne]
      rw [hget, res_bind_ok, vget_row hun, res_bind_ok, he, res_bind_ok]
      have : st'.2.length ≤ g.length := by rw [a3]; exact hlen
      simp [check, this]
    · simp only [List.length_append, List.length_cons] at hlen; omega
    · simp only [List.length_append, List.length_cons, List.length_nil] at hlen ⊢; omega

theorem verIn_spec (inf : Nat) (depth : List Nat) (du p : Nat) (r : List (Nat × α)) (hr : ∀ x ∈ r, x.1 < depth.length) :
    ∃ f, verIn inf depth du p r = .ok f ∧ (f = some true ↔ (∃ x ∈ r, x.1 = p) ∧ depth[p]? = some ((du + inf) % (inf + 1))) := by
  induction r with
  | nil => exact ⟨_, rfl, by simp⟩
  | cons x xs ih =>
    unfold verIn
    by_cases c : x.1 = p
    · rw [if_pos c]
      have hx := hr x (by simp)
      rw [vget_of_lt hx, res_bind_ok]
      have hdp : depth[p]? = some depth[x.1] := by rw [← c, List.getElem?_eq_getElem hx]
      by_cases c2 : depth[x.1] = (du + inf) % (inf + 1)
      · rw [if_neg (by simp [c2])]
        refine ⟨_, rfl, ?_⟩
        rw [hdp, c2]; simp [c]
      · rw [if_pos c2]
        refine ⟨_, rfl, ?_⟩
        simp [hdp, c2]
    · rw [if_neg c]
      obtain ⟨f, h1, h2⟩ := ih (fun y hy => hr y (List.mem_cons_of_mem _ hy))
      refine ⟨f, h1, ?_⟩
      rw [h2]; simp [c]

/-- What the verifier checks at `u`, in terms of the distances `D`. -/
def GoodAt (g : Rows α) (source : Nat) (D : Nat → Option Nat) (inf : Nat) (u pu : Nat) : Prop :=
  (D u = none ∧ pu = inf) ∨ ((∃ d, D u = some d) ∧ pu ≠ inf ∧ u = source ∧ pu = u) ∨
    (pu ≠ inf ∧ u ≠ source ∧ Edge g pu u ∧ ∃ d, D pu = some d ∧ D u = some (d + 1))

theorem verVertex_spec (inf : Nat) (g gt : Rows α) (hg : InRange g) (source : Nat) (hs : source < g.length) (hinf : g.length ≤ inf)
    (hlen : gt.length = g.length) (hgt : ∀ u v, Edge gt u v ↔ Edge g v u) (hgtr : InRange gt)
    {done : List Nat} {D par : Nat → Option Nat} (hI : Inv g source done [] D par) (hsmall : ∀ v d, D v = some d → d < g.length)
    {depth : List Nat} (hD : Arr inf g.length D depth) {parent : List Nat} {u pu : Nat} (hu : u < g.length) (hp : parent[u]? = some pu) :
    ∃ b, verVertex inf gt source depth parent u = .ok b ∧ (b = true ↔ GoodAt g source D inf u pu) := by
  have hDlt : ∀ v d, D v = some d → d < inf := fun v d hd => Nat.lt_of_lt_of_le (hsmall v d hd) hinf
  have hgetd : vget depth u = .ok ((D u).getD inf) := vget_eq_ok.2 (hD.2 u hu)
  unfold verVertex
  rw [hgetd, res_bind_ok, vget_eq_ok.2 hp, res_bind_ok]
  cases hc : D u with
  | none =>
    rw [if_neg (by simp)]
    refine ⟨_, rfl, ?_⟩
    simp only [Option.getD_none, decide_eq_true_eq, GoodAt, hc]
    constructor
    · rintro rfl; exact Or.inl ⟨trivial, rfl⟩
    · rintro (⟨_, h⟩ | ⟨⟨d, h⟩, _⟩ | ⟨_, _, _, d, _, h⟩)
      · exact h.symm
      · cases h
      · cases h
  | some d =>
    have hd := hDlt u d hc
    simp only [Option.getD_some]
    by_cases c : pu = inf
    · rw [if_neg (by simp [c])]
      refine ⟨_, rfl, ?_⟩
      have : d ≠ pu := by omega
      simp [GoodAt, hc, c]
      omega
    · rw [if_pos ⟨by omega, c⟩]
      by_cases cs : u = source
      · rw [if_pos cs]
        refine ⟨_, rfl, ?_⟩
        have : d = 0 := by
          have := hI.root0
          rw [← cs, hc] at this; cases this; rfl
        have h0 : D source = some d := by rw [← cs]; exact hc
        simp [GoodAt, c, cs, this, h0]
      · rw [if_neg cs, vget_row (by rw [hlen]; exact hu), res_bind_ok]
        have hin : ∀ x ∈ gt.getD u [], x.1 < depth.length := by
          intro x hx
          rw [hD.1, ← hlen]
          exact hgtr u x.1 (mem_row_edge hx)
        obtain ⟨f, h1, h2⟩ := verIn_spec inf depth d pu (gt.getD u []) hin
        rw [h1, res_bind_ok]
        refine ⟨_, rfl, ?_⟩
        rw [decide_eq_true_iff, h2]
        have hd0 : d ≠ 0 := by
          rintro rfl
          have := hI.walk u 0 hc
          cases this
          exact cs rfl
        obtain ⟨e, rfl⟩ : ∃ e, d = e + 1 := ⟨d - 1, by omega⟩
        have hmod : (e + 1 + inf) % (inf + 1) = e := by
          have : e + 1 + inf = e + (inf + 1) := by omega
          rw [this, Nat.add_mod_right, Nat.mod_eq_of_lt (by omega)]
        rw [hmod]
        have hmem : (∃ x ∈ gt.getD u [], x.1 = pu) ↔ Edge g pu u := by
          rw [← hgt, Edge, nbrs, List.mem_map]
        rw [hmem]
        simp only [GoodAt, hc]
        constructor
        · rintro ⟨h3, h4⟩
          have hpn : pu < g.length := by
            by_contra hge
            rw [List.getElem?_eq_none (by rw [hD.1]; omega)] at h4
            cases h4
          rw [hD.2 pu hpn] at h4
          refine Or.inr (Or.inr ⟨c, cs, h3, e, ?_, rfl⟩)
          cases hpd : D pu with
          | none => rw [hpd] at h4; simp at h4; omega
          | some y => rw [hpd] at h4; simpa using h4
        · rintro (⟨h, _⟩ | ⟨_, _, h, _⟩ | ⟨_, _, h3, y, h4, h5⟩)
          · cases h
          · exact absurd h cs
          · refine ⟨h3, ?_⟩
            have hpn : pu < g.length := by
              obtain hm := (hI.disc pu).2 ⟨y, h4⟩
              exact hI.lt hg hs hm
            rw [hD.2 pu hpn, h4]
            simp at h5 ⊢; omega

theorem verAll_spec (inf : Nat) (gt : Rows α) (source : Nat) (depth parent : List Nat) (P : Nat → Prop) (us : List Nat)
    (h : ∀ u ∈ us, ∃ b, verVertex inf gt source depth parent u = .ok b ∧ (b = true ↔ P u)) :
    ∃ b, verAll inf gt source depth parent us = .ok b ∧ (b = true ↔ ∀ u ∈ us, P u) := by
  induction us with
  | nil => exact ⟨true, rfl, by simp⟩
  | cons u us ih =>
    obtain ⟨b, h1, h2⟩ := h u (by simp)
    unfold verAll
    rw [h1, res_bind_ok]
    cases b with
    | false =>
      refine ⟨false, by simp, ?_⟩
      have hu : ¬ P u := fun h => by simpa using h2.2 h
      simp [hu]
    | true =>
      obtain ⟨b', h3, h4⟩ := ih (fun v hv => h v (List.mem_cons_of_mem _ hv))
      refine ⟨b', by simp [h3], ?_⟩
      rw [h4]; simp [h2.1 rfl]

/-- The verifier has at most one result. -/
theorem Verifier.det {inf : Nat} {g gt : Rows α} {source : Nat} {parent : List Nat} {o₁ o₂ : Res Bool}
    (h₁ : Verifier inf g gt source parent o₁) (h₂ : Verifier inf g gt source parent o₂) : o₁ = o₂ := by
  unfold Verifier at h₁ h₂
  split at h₁
  · rename_i f hf
    rw [hf] at h₂
    rw [h₁, h₂]
  · rename_i d hd
    rw [hd] at h₂
    obtain ⟨a, h3, h4⟩ := h₁
    obtain ⟨b, h5, h6⟩ := h₂
    have := Loop.det h3 h5
    subst this
    rw [h4, h6]

/-- C42. For every graph, its transpose, every source and every candidate parent array of the right length, the verifier terminates without
fault, and it accepts exactly the breadth-first search trees. -/
theorem verifier_correct (inf : Nat) (g gt : Rows α) (hg : InRange g) (source : Nat) (hs : source < g.length) (hinf : g.length ≤ inf)
    (hlen : gt.length = g.length) (hgt : ∀ u v, Edge gt u v ↔ Edge g v u) (parent : List Nat) (hp : parent.length = g.length) :
    (∃ b, Verifier inf g gt source parent (.ok b)) ∧
      (Verifier inf g gt source parent (.ok true) ↔ BfsTree g source (parentOf inf parent)) := by
  have hgtr : InRange gt := by
    intro u v h
    rw [hlen]
    have h' := (hgt u v).1 h
    by_contra hge
    rw [Edge, nbrs, List.getD_eq_getElem?_getD, List.getElem?_eq_none (by omega)] at h'
    simp at h'
  obtain ⟨depth, hl, done, D, par, hI, hD, hsmall⟩ := verifier_explores inf g hg source hs hinf
  obtain ⟨b, hb, hiff⟩ := verAll_spec inf gt source depth parent
    (fun u => ∃ pu, parent[u]? = some pu ∧ GoodAt g source D inf u pu) (List.range g.length) (by
      intro u hu
      have hu' : u < g.length := by simpa using hu
      have hpu : parent[u]? = some parent[u] := List.getElem?_eq_getElem (by omega)
      obtain ⟨b, h1, h2⟩ := verVertex_spec inf g gt hg source hs hinf hlen hgt hgtr hI hsmall hD hu' hpu
      refine ⟨b, h1, h2.trans ?_⟩
      constructor
      · intro h; exact ⟨_, hpu, h⟩
      · rintro ⟨pu, h3, h4⟩
        rw [hpu] at h3; cases h3; exact h4)
  have hver : Verifier inf g gt source parent (.ok b) := by
    unfold Verifier
    rw [vset_of_lt (by simpa using hs)]
    exact ⟨.ok depth, hl, by rw [res_bind_ok, hb]⟩
  refine ⟨⟨b, hver⟩, ?_⟩
  have hreach : ∀ v, (∃ d, D v = some d) ↔ Reachable g source v := by
    intro v
    constructor
    · rintro ⟨d, hd⟩; exact ⟨d, hI.walk v d hd⟩
    · intro h
      obtain ⟨d, hd⟩ := h.exists_dist
      exact ⟨d, (hI.dist v d).2 hd⟩
  have hbt : b = true ↔ BfsTree g source (parentOf inf parent) := by
    rw [hiff]
    constructor
    · intro hall
      have hall' : ∀ u, u < g.length → GoodAt g source D inf u (parent.getD u inf) := by
        intro u hu
        obtain ⟨pu, h1, h2⟩ := hall u (by simpa using hu)
        rw [List.getD_eq_getElem?_getD, h1]; exact h2
      have hparof : ∀ u, u < g.length → parentOf inf parent u = if parent.getD u inf = inf then none else some (parent.getD u inf) := by
        intro u hu
        rw [parentOf, List.getD_eq_getElem?_getD, List.getElem?_eq_getElem (by omega)]
        rfl
      have hout : ∀ u, ¬ u < g.length → parentOf inf parent u = none := by
        intro u hu
        rw [parentOf, List.getElem?_eq_none (by omega)]
      constructor
      · have := hall' source hs
        rw [hparof source hs]
        rcases this with ⟨h, _⟩ | ⟨_, h1, _, h2⟩ | ⟨_, h, _⟩
        · rw [hI.root0] at h; cases h
        · rw [if_neg h1, h2]
        · exact absurd rfl h
      · intro v
        rw [← hreach]
        by_cases c : v < g.length
        · rw [hparof v c]
          rcases hall' v c with ⟨h1, h2⟩ | ⟨h1, h2, _⟩ | ⟨h1, _, _, d, _, h2⟩
          · simp [h1]; exact h2
          · obtain ⟨d, hd⟩ := h1
            simp [hd]; exact h2
          · simp [h2]; exact h1
        · rw [hout v c]
          constructor
          · rintro ⟨_, h⟩; cases h
          · rintro ⟨d, hd⟩
            exact absurd (hI.lt hg hs ((hI.disc v).2 ⟨d, hd⟩)) c
      · intro v u hv hu
        by_cases c : v < g.length
        · rw [hparof v c] at hu
          rcases hall' v c with ⟨h1, h2⟩ | ⟨_, _, h, _⟩ | ⟨h1, _, h3, d, h4, h5⟩
          · rw [if_pos h2] at hu; cases hu
          · exact absurd h hv
          · rw [if_neg h1] at hu
            have hu := Option.some.inj hu
            subst hu
            exact ⟨h3, d, (hI.dist _ _).1 h4, (hI.dist _ _).1 h5⟩
        · rw [hout v c] at hu; cases hu
    · intro ht u hu
      have hu' : u < g.length := by simpa using hu
      have hpu : parent[u]? = some parent[u] := List.getElem?_eq_getElem (by omega)
      refine ⟨parent[u], hpu, ?_⟩
      have hpo : parentOf inf parent u = if parent[u] = inf then none else some parent[u] := by rw [parentOf, hpu]
      by_cases c : parent[u] = inf
      · left
        rw [if_pos c] at hpo
        refine ⟨?_, c⟩
        cases hd : D u with
        | none => rfl
        | some d =>
          obtain ⟨p, hp⟩ := (ht.reach u).2 ((hreach u).1 ⟨d, hd⟩)
          rw [hpo] at hp; cases hp
      · rw [if_neg c] at hpo
        right
        by_cases cs : u = source
        · left
          refine ⟨(hreach u).2 ((ht.reach u).1 ⟨_, hpo⟩), c, cs, ?_⟩
          have := ht.rootPar
          rw [← cs, hpo] at this; exact Option.some.inj this
        · right
          obtain ⟨h1, d, h2, h3⟩ := ht.edge u _ cs hpo
          exact ⟨c, cs, h1, d, (hI.dist _ _).2 h2, (hI.dist _ _).2 h3⟩
  constructor
  · intro h
    have := Verifier.det h hver
    cases this
    exact hbt.1 rfl
  · intro h
    rw [hbt.2 h] at hver
    exact hver

/-! ## C54 -/

/-- The marks agree with what has been discovered. -/
def Marks (n : Nat) (D : Nat → Option Nat) (vis : List Bool) : Prop :=
  vis.length = n ∧ ∀ v, v < n → vis[v]? = some (D v).isSome

theorem Marks.init {n s : Nat} (hs : s < n) : Marks n (upd (fun _ => none) s 0) ((List.replicate n false).set s true) := by
  refine ⟨by simp, ?_⟩
  intro v hv
  rw [List.getElem?_set]
  by_cases c : s = v
  · subst c; simp [upd, hs]
  · have : v ≠ s := fun e => c e.symm
    rw [if_neg c]; simp [upd, this, hv]

theorem Marks.set {n : Nat} {D : Nat → Option Nat} {vis : List Bool} (h : Marks n D vis) {v : Nat} (hv : v < n) (x : Nat) :
    Marks n (upd D v x) (vis.set v true) := by
  refine ⟨by simp [h.1], ?_⟩
  intro w hw
  rw [List.getElem?_set]
  by_cases c : v = w
  · subst c; simp [upd, h.1, hv]
  · have : w ≠ v := fun e => c e.symm
    rw [if_neg c, h.2 w hw]; simp [upd, this]

theorem visit_step (g : Rows α) (hg : InRange g) (root : Nat) (hr : root < g.length)
    {done : List Nat} {u : Nat} {pfx q : List Nat} {D par : Nat → Option Nat} {st : Range}
    (hI : Inv g root done (u :: q) D par) (hM : Marks g.length D st.visited) (hq : st.queue = pfx ++ q) :
    ∃ st' q' D' par', visit g st u = .ok st' ∧ Inv g root (done ++ [u]) q' D' par' ∧ Marks g.length D' st'.visited ∧
      st'.queue = pfx ++ q' := by
  have hun : u < g.length := hI.lt hg hr (by simp)
  obtain ⟨st', he, q', D', par', a1, a2, a3⟩ := foldlM_list_inv (l := g.getD u []) (f := visitEdge) (s := st)
    (fun pre st => ∃ q' D par, Mid g root done u (pre.map Prod.fst) q' D par ∧ Marks g.length D st.visited ∧ st.queue = pfx ++ q')
    ⟨q, D, par, hI.start, hM, hq⟩
    (by
      rintro pre x post hpx st ⟨q', D, par, a1, a2, a3⟩
      have hx : Edge g u x.1 := mem_row_edge (x := x) (by rw [hpx]; simp)
      have hxn := hg u x.1 hx
      unfold visitEdge
      rw [vget_eq_ok.2 (a2.2 _ hxn), res_bind_ok]
      obtain ⟨du, hu⟩ := a1.self
      cases hc : D x.1 with
      | some d =>
        exact ⟨st, by simp, q', D, par, by simpa using a1.seen hc, a2, a3⟩
      | none =>
        rw [if_pos (by simp), vset_of_lt (by rw [a2.1]; exact hxn), res_bind_ok]
        exact ⟨_, rfl, _, _, _, by simpa using a1.discover hc hx hu, a2.set hxn _, by simp [a3]⟩)
  refine ⟨st', q', D', par', ?_, a1.finish, a2, a3⟩
  unfold visit
  rw [vget_row hun, res_bind_ok, he]

theorem visit_again (g : Rows α) (hg : InRange g) (root : Nat) (hr : root < g.length)
    {done : List Nat} {u : Nat} {q : List Nat} {D par : Nat → Option Nat} {st : Range}
    (hI : Inv g root done q D par) (hM : Marks g.length D st.visited) (hu : u ∈ done) : visit g st u = .ok st := by
  have hun : u < g.length := hI.lt hg hr (by simp [hu])
  obtain ⟨st', he, h2⟩ := foldlM_list_inv (l := g.getD u []) (f := visitEdge) (s := st) (fun _ st' => st' = st) rfl
    (by
      rintro pre x post hpx st' rfl
      have hx : Edge g u x.1 := mem_row_edge (x := x) (by rw [hpx]; simp)
      have hxn := hg u x.1 hx
      obtain ⟨_, y, _, hy, _⟩ := hI.closed u hu x.1 hx
      refine ⟨st', ?_, rfl⟩
      unfold visitEdge
      rw [vget_eq_ok.2 (hM.2 _ hxn), res_bind_ok, hy]
      simp)
  subst h2
  unfold visit
  rw [vget_row hun, res_bind_ok, he]

/-- Breadth-first order: every reachable vertex exactly once, by non-decreasing distance. -/
structure BfsOrder (g : Rows α) (s : Nat) (vs : List Nat) : Prop where
  once : vs.Nodup
  reach : ∀ v, v ∈ vs ↔ Reachable g s v
  sorted : vs.Pairwise (fun a b => ∀ x y, IsDist g s a x → IsDist g s b y → x ≤ y)

theorem Inv.order {g : Rows α} {s : Nat} {done : List Nat} {D par : Nat → Option Nat} (h : Inv g s done [] D par) : BfsOrder g s done where
  once := by simpa using h.nodup
  reach := h.mem_done_iff
  sorted := by
    have := h.mono
    rw [List.append_nil] at this
    exact this.imp fun hab x y hx hy => hab x y ((h.dist _ _).2 hx) ((h.dist _ _).2 hy)

/-- C54. For every graph with in-range neighbours and every seed, iterating `topdown_bfs_range` ends, and it yields every reachable vertex
exactly once in order of non-decreasing distance. -/
theorem topdown_bfs_range_correct (g : Rows α) (hg : InRange g) (seed : Nat) (hs : seed < g.length) :
    ∃ vs, RangeVisits g seed (.ok vs) ∧ BfsOrder g seed vs := by
  obtain ⟨st, q, D, par, h1, h2, h3, h4⟩ := visit_step g hg seed hs (pfx := [seed]) (q := [])
    (st := { visited := (List.replicate g.length false).set seed true, queue := [seed] }) (Inv.init g seed) (Marks.init hs) rfl
  have hinit : rangeInit g seed = .ok st := by
    unfold rangeInit
    rw [vset_of_lt (by simpa using hs), res_bind_ok]
    exact h1
  unfold RangeVisits
  rw [hinit]
  show ∃ vs, Loop _ _ _ ∧ _
  have hlen := h2.length_le hg hs
  refine Loop.of_rank (fun k p => (∃ done D par, k + done.length = g.length ∧ p.2 = done ∧ Inv g seed done p.1.queue D par ∧
      Marks g.length D p.1.visited) ∨ (∃ q D par, k = g.length ∧ p.2 = [] ∧ p.1.queue = seed :: q ∧ Inv g seed [seed] q D par ∧
      Marks g.length D p.1.visited)) _ ?_ (k := g.length) (Or.inr ⟨q, D, par, rfl, rfl, h4, h2, h3⟩)
  rintro k ⟨st, acc⟩ (⟨done, D, par, hk, hacc, hI, hM⟩ | ⟨q, D, par, hk, hacc, hq, hI, hM⟩)
  · simp only at hacc hI hM
    subst hacc
    cases hq : st.queue with
    | nil =>
      left
      rw [hq] at hI
      exact ⟨acc, by simp [Iter.body, rangeIter, hq], Inv.order hI⟩
    | cons u q =>
      right
      rw [hq] at hI
      obtain ⟨st', q', D', par', b1, b2, b3, b4⟩ := visit_step g hg seed hs (pfx := []) (st := { st with queue := q }) hI hM rfl
      have hlen := b2.length_le hg hs
      simp only [List.length_append, List.length_cons, List.length_nil] at hlen
      refine ⟨(st', acc ++ [u]), k - 1, ?_, by omega, Or.inl ⟨acc ++ [u], D', par', ?_, rfl, ?_, b3⟩⟩
      · simp [Iter.body, rangeIter, hq, process, b1]
      · simp; omega
      · simp only
        rw [b4]; exact b2
  · simp only at hacc hq hM
    subst hacc
    right
    refine ⟨({ st with queue := q }, [seed]), g.length - 1, ?_, by omega, Or.inl ⟨[seed], D, par, ?_, rfl, hI, hM⟩⟩
    · have := visit_again g hg seed hs (st := { st with queue := q }) (u := seed) hI hM (by simp)
      simp [Iter.body, rangeIter, hq, process, this]
    · simp; omega

/-! ## C55 -/

/-- The edges of a breadth-first search tree, in order of the distance of their targets. -/
structure BfsEdges (g : Rows α) (s : Nat) (es : List (Nat × Nat × α)) : Prop where
  once : (es.map (·.2.1)).Nodup
  reach : ∀ v, v ∈ es.map (·.2.1) ↔ (Reachable g s v ∧ v ≠ s)
  edge : ∀ e ∈ es, (e.2.1, e.2.2) ∈ g.getD e.1 [] ∧ ∃ d, IsDist g s e.1 d ∧ IsDist g s e.2.1 (d + 1)
  sorted : es.Pairwise (fun a b => ∀ x y, IsDist g s a.2.1 x → IsDist g s b.2.1 y → x ≤ y)

theorem skipVisited_spec {n : Nat} {D : Nat → Option Nat} {vis : List Bool} (hM : Marks n D vis) (r : List (Nat × α))
    (hr : ∀ x ∈ r, x.1 < n) : ∃ pre post, r = pre ++ post ∧ skipVisited vis r = .ok post ∧ (∀ x ∈ pre, ∃ d, D x.1 = some d) ∧
      ∀ x xs, post = x :: xs → D x.1 = none := by
  induction r with
  | nil => exact ⟨[], [], rfl, rfl, by simp, by simp⟩
  | cons y ys ih =>
    unfold skipVisited
    rw [vget_eq_ok.2 (hM.2 _ (hr y (by simp))), res_bind_ok]
    cases hc : D y.1 with
    | none =>
      refine ⟨[], y :: ys, rfl, by simp, by simp, ?_⟩
      intro x xs h
      cases h; exact hc
    | some d =>
      obtain ⟨pre, post, h1, h2, h3, h4⟩ := ih (fun x hx => hr x (List.mem_cons_of_mem _ hx))
      refine ⟨y :: pre, post, by simp [h1], by simp [h2], ?_, h4⟩
      intro x hx
      rcases List.mem_cons.1 hx with rfl | hx
      · exact ⟨d, hc⟩
      · exact h3 x hx

theorem Mid.seenAll {g : Rows α} {root : Nat} {done : List Nat} {u : Nat} {sc q : List Nat} {D par : Nat → Option Nat}
    (h : Mid g root done u sc q D par) (l : List (Nat × α)) (hl : ∀ x ∈ l, ∃ d, D x.1 = some d) :
    Mid g root done u (sc ++ l.map Prod.fst) q D par := by
  induction l generalizing sc with
  | nil => simpa using h
  | cons x xs ih =>
    obtain ⟨d, hd⟩ := hl x (by simp)
    have := ih (h.seen hd) (fun y hy => hl y (List.mem_cons_of_mem _ hy))
    simpa using this

/-- Where the iteration stands: at an edge into an unvisited vertex, or at the end. -/
def At (g : Rows α) (s : Nat) (D par : Nat → Option Nat) (st : ERange α) (found : List Nat) : Prop :=
  Marks g.length D st.visited ∧
  ((∃ done q sc x xs, Mid g s done st.v sc q D par ∧ st.queue = st.v :: q ∧ st.rest = x :: xs ∧ D x.1 = none ∧
      nbrs g st.v = sc ++ st.rest.map Prod.fst ∧ (∃ pre, g.getD st.v [] = pre ++ st.rest) ∧ found = done ++ st.v :: q) ∨
   (st.queue = [] ∧ Inv g s found [] D par))

theorem eAdvance_spec (g : Rows α) (hg : InRange g) (s : Nat) (hs : s < g.length) {D par : Nat → Option Nat} {vis : List Bool}
    (hM : Marks g.length D vis) (q : List Nat) : ∀ (v : Nat) (rest : List (Nat × α)) (done sc : List Nat),
    Mid g s done v sc q D par → nbrs g v = sc ++ rest.map Prod.fst → (∃ pre, g.getD v [] = pre ++ rest) →
    (∀ x xs, rest = x :: xs → D x.1 = none) →
    ∃ st, eAdvance g vis (v :: q) v rest = .ok st ∧ At g s D par st (done ++ v :: q) := by
  induction q with
  | nil =>
    intro v rest done sc hm hn hpre hun
    cases rest with
    | cons x xs =>
      rw [eAdvance]
      exact ⟨_, rfl, hM, Or.inl ⟨done, [], sc, x, xs, hm, rfl, rfl, hun x xs rfl, hn, hpre, rfl⟩⟩
    | nil =>
      rw [eAdvance]
      refine ⟨_, rfl, hM, Or.inr ⟨rfl, ?_⟩⟩
      have : sc = nbrs g v := by simpa using hn.symm
      subst this
      exact hm.finish
  | cons v' q ih =>
    intro v rest done sc hm hn hpre hun
    cases rest with
    | cons x xs =>
      rw [eAdvance]
      exact ⟨_, rfl, hM, Or.inl ⟨done, v' :: q, sc, x, xs, hm, rfl, rfl, hun x xs rfl, hn, hpre, rfl⟩⟩
    | nil =>
      have : sc = nbrs g v := by simpa using hn.symm
      subst this
      have hI := hm.finish
      have hv' : v' < g.length := hI.lt hg hs (by simp)
      obtain ⟨d, hd⟩ := (hI.disc v').1 (by simp)
      rw [eAdvance, vget_eq_ok.2 (hM.2 _ hv'), res_bind_ok, hd]
      obtain ⟨pre, post, h1, h2, h3, h4⟩ := skipVisited_spec hM (g.getD v' [])
        (fun x hx => hg v' x.1 (mem_row_edge hx))
      obtain ⟨st, h5, h6⟩ := ih v' post (done ++ [v]) _ (Mid.seenAll hI.start pre h3)
        (by rw [nbrs, h1]; simp) ⟨pre, h1⟩ h4
      refine ⟨st, ?_, ?_⟩
      · simp only [check, Option.isSome_some, if_true, res_bind_ok]
        rw [vget_row hv', res_bind_ok, h2, res_bind_ok, h5]
      · simpa using h6

/-- C55 for every seed whose first stored neighbour is another vertex: iterating `bfs_edge_range` ends, and yields exactly one edge into each
reachable vertex other than the seed, from a vertex one level closer, in order of non-decreasing distance.  The two remaining kinds of
seeds are `bfs_edge_range_no_neighbours_faults` and `bfs_edge_range_self_loop_first`: for them the property is false. -/
theorem bfs_edge_range_partial (g : Rows α) (hg : InRange g) (seed : Nat) (hs : seed < g.length)
    (x₀ : Nat × α) (r₀ : List (Nat × α)) (hrow : g.getD seed [] = x₀ :: r₀) (hne : x₀.1 ≠ seed) :
    ∃ es, ERangeVisits g seed (.ok es) ∧ BfsEdges g seed es := by
  have hinit : eInit g seed = .ok { visited := (List.replicate g.length false).set seed true, queue := [seed], v := seed, rest := x₀ :: r₀ } := by
    unfold eInit
    rw [vset_of_lt (by simpa using hs), res_bind_ok, vget_row hs, res_bind_ok, hrow]; rfl
  unfold ERangeVisits
  rw [hinit]
  show ∃ vs, Loop _ _ _ ∧ _
  refine Loop.of_rank (fun k p => ∃ D par found, At g seed D par p.1 found ∧ k + p.2.length = g.length ∧
      found = seed :: p.2.map (·.2.1) ∧
      ∀ e ∈ p.2, (e.2.1, e.2.2) ∈ g.getD e.1 [] ∧ par e.2.1 = some e.1) _ ?_ (k := g.length)
    ⟨_, _, [seed], ⟨Marks.init hs, Or.inl ⟨[], [], [], x₀, r₀, (Inv.init g seed).start, rfl, rfl, by simp [upd, hne],
      by rw [nbrs, hrow]; rfl, ⟨[], by simpa using hrow⟩, rfl⟩⟩, by simp, rfl, by simp⟩
  rintro k ⟨st, acc⟩ ⟨D, par, found, ⟨hM, hat⟩, hk, hf, hacc⟩
  simp only at hM hk hf hacc
  rcases hat with ⟨done, q, sc, x, xs, hm, hq, hrest, hx, hn, ⟨pre, hpre⟩, hfound⟩ | ⟨hq, hI⟩
  · right
    simp only at hm hq hrest hn hpre hfound
    have hmem : x ∈ g.getD st.v [] := by rw [hpre, hrest]; simp
    have hedge : Edge g st.v x.1 := mem_row_edge hmem
    have hxn := hg _ _ hedge
    obtain ⟨dv, hdv⟩ := hm.self
    have hm' := hm.discover hx hedge hdv
    have hM' := hM.set hxn (dv + 1)
    obtain ⟨pre', post, h1, h2, h3, h4⟩ := skipVisited_spec hM' xs (fun y hy => hg st.v y.1 (mem_row_edge (by rw [hpre, hrest]; simp [hy])))
    have hm'' := Mid.seenAll hm' pre' h3
    obtain ⟨st', h5, h6⟩ := eAdvance_spec g hg seed hs hM' (q ++ [x.1]) st.v post done _ hm''
      (by rw [hn, hrest, h1]; simp) ⟨pre ++ [x] ++ pre', by rw [hpre, hrest, h1]; simp⟩ h4
    have hlen := hm'.length_le hg hs
    have hl1 : acc.length + 1 = (done ++ st.v :: q).length := by
      rw [← hfound, hf]; simp
    simp only [List.length_append, List.length_cons, List.length_nil] at hlen hl1
    refine ⟨(st', acc ++ [(st.v, x.1, x.2)]), k - 1, ?_, by omega, _, _, _, h6, ?_, ?_, ?_⟩
    · simp only [Iter.body, eIter, hq, hrest]
      simp only [eNext, hrest]
      rw [vset_of_lt (by rw [hM.1]; exact hxn)]
      simp only [res_bind_ok, h2, hq]
      simp only [List.cons_append, h5]
      rfl
    · simp; omega
    · have : done ++ st.v :: (q ++ [x.1]) = (done ++ st.v :: q) ++ [x.1] := by simp
      rw [this, ← hfound, hf]; simp
    · intro e he
      simp only [List.mem_append, List.mem_singleton] at he
      rcases he with he | rfl
      · obtain ⟨a, b⟩ := hacc e he
        refine ⟨a, ?_⟩
        have : e.2.1 ≠ x.1 := by
          intro heq
          obtain ⟨d, hd⟩ := (hm.parD _).1 ⟨_, b⟩
          rw [heq, hx] at hd; cases hd
        simp [upd, this, b]
      · exact ⟨hmem, by simp [upd]⟩
  · left
    simp only at hq hI
    refine ⟨acc, by simp [Iter.body, eIter, hq], ?_⟩
    have hnd := hI.nodup
    rw [List.append_nil, hf, List.nodup_cons] at hnd
    have hord := Inv.order hI
    have hns : ∀ e ∈ acc, e.2.1 ≠ seed := by
      intro e he heq
      exact hnd.1 (heq ▸ List.mem_map_of_mem he)
    refine ⟨hnd.2, ?_, ?_, ?_⟩
    · intro v
      rw [← hord.reach, hf, List.mem_cons]
      constructor
      · intro h
        refine ⟨Or.inr h, ?_⟩
        rintro rfl; exact hnd.1 h
      · rintro ⟨rfl | h, h2⟩
        · exact absurd rfl h2
        · exact h
    · intro e he
      obtain ⟨a, b⟩ := hacc e he
      exact ⟨a, ((hI.tree_of).edge _ _ (hns e he) b).2⟩
    · have := hord.sorted
      rw [hf, List.pairwise_cons] at this
      exact (List.pairwise_map.1 this.2)

/-- C55 fails for every seed without neighbours: the first dereference reads past the end of the seed's empty row. -/
theorem bfs_edge_range_no_neighbours_faults (g : Rows α) (seed : Nat) (hs : seed < g.length) (hrow : g.getD seed [] = []) :
    ERangeVisits g seed (.error .outOfBounds) := by
  unfold ERangeVisits eInit
  rw [vset_of_lt (by simpa using hs), res_bind_ok, vget_row hs, res_bind_ok, hrow]
  apply Loop.fault
  simp [Iter.body, eIter]

/-- C55 fails for a seed whose first stored neighbour is itself: whatever the iteration yields starts with the edge from the seed to itself. -/
theorem bfs_edge_range_self_loop_first (g : Rows α) (seed : Nat) (hs : seed < g.length) (a : α) (r : List (Nat × α))
    (hrow : g.getD seed [] = (seed, a) :: r) (es : List (Nat × Nat × α)) (h : ERangeVisits g seed (.ok es)) :
    es.head? = some (seed, seed, a) ∧ ¬ BfsEdges g seed es := by
  have key : ∀ (p : ERange α × List (Nat × Nat × α)) (o : Res (List (Nat × Nat × α))), Loop (eIter g).body p o →
      ∀ e tl, p.2 = e :: tl → ∀ es, o = .ok es → es.head? = some e := by
    intro p o hl
    induction hl with
    | @done p r hb =>
      intro e tl hp es ho
      cases ho
      simp only [Iter.body] at hb
      cases h1 : (eIter g).atEnd p.1 with
      | error f => rw [h1] at hb; cases hb
      | ok b =>
        rw [h1, res_bind_ok] at hb
        cases b with
        | true => simp at hb; rw [← hb, hp]; rfl
        | false =>
          simp only [Bool.false_eq_true, if_false] at hb
          cases h2 : (eIter g).deref p.1 with
          | error f => rw [h2] at hb; cases hb
          | ok x =>
            rw [h2, res_bind_ok] at hb
            cases h3 : (eIter g).next p.1 with
            | error f => rw [h3] at hb; cases hb
            | ok s' => rw [h3, res_bind_ok] at hb; cases hb
    | @fault p f hb => intro e tl hp es ho; cases ho
    | @step p p' o hb hl ih =>
      intro e tl hp es ho
      refine ih e ?_ ?_ es ho
      · exact (p'.2).tail
      · simp only [Iter.body] at hb
        cases h1 : (eIter g).atEnd p.1 with
        | error f => rw [h1] at hb; cases hb
        | ok b =>
          rw [h1, res_bind_ok] at hb
          cases b with
          | true => simp at hb
          | false =>
            simp only [Bool.false_eq_true, if_false] at hb
            cases h2 : (eIter g).deref p.1 with
            | error f => rw [h2] at hb; cases hb
            | ok x =>
              rw [h2, res_bind_ok] at hb
              cases h3 : (eIter g).next p.1 with
              | error f => rw [h3] at hb; cases hb
              | ok s' =>
                rw [h3, res_bind_ok] at hb
                cases hb
                simp [hp]
  have hinit : eInit g seed = .ok { visited := (List.replicate g.length false).set seed true, queue := [seed], v := seed, rest := (seed, a) :: r } := by
    unfold eInit
    rw [vset_of_lt (by simpa using hs), res_bind_ok, vget_row hs, res_bind_ok, hrow]; rfl
  unfold ERangeVisits at h
  rw [hinit] at h
  have hhead : es.head? = some (seed, seed, a) := by
    cases h with
    | done hb =>
      simp only [Iter.body, eIter] at hb
      cases h3 : eNext g { visited := (List.replicate g.length false).set seed true, queue := [seed], v := seed, rest := (seed, a) :: r } with
      | error f => simp [h3] at hb
      | ok s' => simp [h3] at hb
    | step hb hl =>
      refine key _ _ hl (seed, seed, a) [] ?_ es rfl
      simp only [Iter.body, eIter] at hb
      cases h3 : eNext g { visited := (List.replicate g.length false).set seed true, queue := [seed], v := seed, rest := (seed, a) :: r } with
      | error f => simp [h3] at hb
      | ok s' => simp [h3] at hb; rw [← hb]
  refine ⟨hhead, ?_⟩
  intro hb
  have hmem : seed ∈ es.map (·.2.1) := by
    cases es with
    | nil => cases hhead
    | cons e tl => cases hhead; simp
  exact ((hb.reach seed).1 hmem).2 rfl

/-! ## Examples: a graph with a cycle, two shortest paths and an unreachable vertex -/

/-- 0→1,2; 1→3; 2→3,0; 3→1; 4→0. -/
def exG : Rows Unit := [[(1, ()), (2, ())], [(3, ())], [(3, ()), (0, ())], [(1, ())], [(0, ())]]
def exT : Rows Unit := [[(2, ()), (4, ())], [(0, ()), (3, ())], [(0, ())], [(1, ()), (2, ())], []]

theorem exG_inRange : InRange exG := by decide

example : InRange exG ∧ 0 < exG.length ∧ exG.length ≤ 7 := ⟨exG_inRange, by decide, by decide⟩
/-- The run of the model on it. -/
example : Run 7 exG 0 (.ok [0, 0, 0, 1, 7]) := by
  unfold Run
  exact Loop.of_runFuel (n := 10) (by decide)
/-- The verifier accepts this and another tree, and rejects a wrong parent. -/
example : Verifier 7 exG exT 0 [0, 0, 0, 1, 7] (.ok true) ∧ Verifier 7 exG exT 0 [0, 0, 0, 2, 7] (.ok true) ∧
    Verifier 7 exG exT 0 [0, 3, 0, 2, 7] (.ok false) := by
  refine ⟨⟨.ok [0, 1, 1, 2, 7], Loop.of_runFuel (n := 10) (by decide), by decide⟩,
    ⟨.ok [0, 1, 1, 2, 7], Loop.of_runFuel (n := 10) (by decide), by decide⟩,
    ⟨.ok [0, 1, 1, 2, 7], Loop.of_runFuel (n := 10) (by decide), by decide⟩⟩
example : exT.length = exG.length ∧ ∀ u v, u < 5 → v < 5 → (Edge exT u v ↔ Edge exG v u) := by
  refine ⟨by decide, ?_⟩
  have : ∀ u < 5, ∀ v < 5, (v ∈ nbrs exT u ↔ u ∈ nbrs exG v) := by decide
  exact fun u v hu hv => this u hu v hv
example : RangeVisits exG 0 (.ok [0, 1, 2, 3]) := Loop.of_runFuel (n := 10) (by decide)
example : ERangeVisits exG 0 (.ok [(0, 1, ()), (0, 2, ()), (1, 3, ())]) := Loop.of_runFuel (n := 10) (by decide)
example : exG.getD 0 [] = (1, ()) :: [(2, ())] ∧ (1, ()).1 ≠ 0 := by decide
/-- A lone seed, and a seed with a self loop first. -/
example : ERangeVisits [([] : List (Nat × Unit))] 0 (.error .outOfBounds) := bfs_edge_range_no_neighbours_faults _ 0 (by decide) (by decide)
example : ERangeVisits [[(0, ()), (1, ())], []] 0 (.ok [(0, 0, ()), (0, 1, ())]) := Loop.of_runFuel (n := 10) (by decide)

end NW.Bfs
