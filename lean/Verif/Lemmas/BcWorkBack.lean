import Verif.Lemmas.BcWork

/-! # Lemmas: the second work list adds up the dependencies -/

namespace NW.BcWork
open Spec Fifo
open NW.Brandes (Vec isNext isNext_iff CntI FInv)

variable {α : Type}

/-- What `w` adds to `v`. -/
def part (M : Nat) (dep : Nat → ℚ) (G : Nat → Nat) (Pf : Nat → List Nat) (v w : Nat) : ℚ :=
  if v ∈ Pf w then ((G v % M : Nat) : ℚ) / ((G w % M : Nat) : ℚ) * (1 + dep w) else 0

/-- The predecessors of `v`. -/
theorem backPred_fold {M n : Nat} {vs : List Node} {F : Nat → Node} {G : Nat → Nat} (hv : Vec n F vs) (hpc : ∀ z < n, (F z).pc = G z % M) (s : Nat) {v : Nat} (hvn : v < n) (A : ℚ)
    (ps : List Nat) : ∀ {b : Back} {E : Nat → ℚ} {C : Nat → Nat} (_ : ps.Nodup) (_ : ∀ u ∈ ps, u < n ∧ u ≠ v ∧ C u ≠ 0) (_ : Vec n E b.delta) (_ : E v = A) (_ : Vec n C b.ct),
    ∃ b', ps.foldlM (backPred vs s v) b = .ok b' ∧ Vec n (fun u => E u + if u ∈ ps then ((G u % M : Nat) : ℚ) / ((G v % M : Nat) : ℚ) * (1 + A) else 0) b'.delta ∧
      Vec n (fun u => C u - if u ∈ ps then 1 else 0) b'.ct ∧ b'.q = b.q ++ ps.filter (fun u => decide (C u = 1 ∧ u ≠ s)) ∧ b'.cent = b.cent := by
  induction ps with
  | nil =>
    intro b E C _ _ hE _ hC
    exact ⟨b, rfl, hE.congr fun u _ => by simp, hC.congr fun u _ => by simp, by simp, rfl⟩
  | cons u ps ih =>
    intro b E C hnd hps hE hA hC
    obtain ⟨hun, huv, hCu⟩ := hps u (by simp)
    obtain ⟨hu, hnd⟩ := List.nodup_cons.1 hnd
    obtain ⟨e1, e2⟩ := hE.vset hun (E u + ((F u).pc : ℚ) / ((F v).pc : ℚ) * (1 + E v))
    obtain ⟨e3, e4⟩ := hC.vset hun (C u - 1)
    have hstep : backPred vs s v b u = .ok { b with delta := b.delta.set u (E u + ((F u).pc : ℚ) / ((F v).pc : ℚ) * (1 + E v)), ct := b.ct.set u (C u - 1), q := if C u - 1 = 0 ∧ u ≠ s then b.q ++ [u] else b.q } := by
      unfold backPred
      rw [hv.vget hun, res_bind_ok, hv.vget hvn, res_bind_ok, hE.vget hvn, res_bind_ok, hE.vget hun, res_bind_ok, e1, res_bind_ok, hC.vget hun, res_bind_ok]
      simp only [if_neg hCu]
      rw [e3, res_bind_ok]; rfl
    rw [List.foldlM_cons, hstep, res_bind_ok]
    obtain ⟨b', f1, f2, f3, f4, f5⟩ := ih (b := { b with delta := b.delta.set u (E u + ((F u).pc : ℚ) / ((F v).pc : ℚ) * (1 + E v)), ct := b.ct.set u (C u - 1), q := if C u - 1 = 0 ∧ u ≠ s then b.q ++ [u] else b.q }) hnd (by
      intro z hz
      have hzu : z ≠ u := by rintro rfl; exact hu hz
      obtain ⟨a1, a2, a3⟩ := hps z (by simp [hz])
      exact ⟨a1, a2, by rw [if_neg hzu]; exact a3⟩) e2 (by
      show (if v = u then _ else E v) = A
      rw [if_neg fun e => huv e.symm]; exact hA) e4
    refine ⟨b', f1, f2.congr fun z hz => ?_, f3.congr fun z _ => ?_, ?_, f5⟩
    · by_cases c : z = u
      · subst c
        rw [if_pos rfl, if_neg hu, if_pos (by simp), hpc z hz, hpc v hvn, hA]; ring
      · rw [if_neg c]; simp [c]
    · by_cases c : z = u
      · subst c
        simp [hu]
      · simp [c]
    · rw [f4]
      have hfil : ps.filter (fun z => decide ((if z = u then C u - 1 else C z) = 1 ∧ z ≠ s)) = ps.filter (fun z => decide (C z = 1 ∧ z ≠ s)) := by
        apply List.filter_congr
        intro z hz
        have hzu : z ≠ u := by rintro rfl; exact hu hz
        simp [hzu]
      rw [hfil, List.filter_cons]
      have : (C u - 1 = 0 ∧ u ≠ s) ↔ (C u = 1 ∧ u ≠ s) := by constructor <;> rintro ⟨a, b⟩ <;> exact ⟨by omega, b⟩
      by_cases c : C u = 1 ∧ u ≠ s
      · simp [c]
      · simp only [this, c, if_false, decide_false, Bool.false_eq_true]

/-- The ghost state of the way back. -/
structure BInv (M n s : Nat) (dep c0 : Nat → ℚ) (G : Nat → Nat) (Pf : Nat → List Nat) (F : Nat → Node) (fin : List Nat) (b : Back) : Prop where
  delta : Vec n (fun v => (fin.map (part M dep G Pf v)).sum) b.delta
  ct : Vec n (fun v => ((F v).succs.filter fun w => decide (w ∉ fin)).length) b.ct
  cent : Vec n (fun v => c0 v + if v ∈ fin then dep v else 0) b.cent
  nodup : (fin ++ b.q).Nodup
  mem : ∀ v, v ∈ fin ++ b.q ↔ v < n ∧ (∀ w ∈ (F v).succs, w ∈ fin) ∧ (v ≠ s ∨ (F s).succs = [])

theorem filter_snoc {l fin : List Nat} (hl : l.Nodup) (v : Nat) :
    (l.filter fun w => decide (w ∉ fin ++ [v])).length = (l.filter fun w => decide (w ∉ fin)).length - if v ∈ l ∧ v ∉ fin then 1 else 0 := by
  have h1 : (l.filter fun w => decide (w ∉ fin ++ [v])) = (l.filter fun w => decide (w ∉ fin)).erase v := by
    rw [(hl.filter _).erase_eq_filter, List.filter_filter]
    apply List.filter_congr
    intro w _
    by_cases c : w = v <;> simp [c]
  rw [h1, List.length_erase]
  by_cases c : v ∈ l ∧ v ∉ fin
  · rw [if_pos c, if_pos (by simpa using c)]
  · rw [if_neg c, if_neg (by simpa using c)]; rfl

theorem filter_zero {l fin : List Nat} : (l.filter fun w => decide (w ∉ fin)).length = 0 ↔ ∀ w ∈ l, w ∈ fin := by
  rw [List.length_eq_zero_iff, List.filter_eq_nil_iff]
  simp

/-- One vertex of the second work list. -/
theorem back_step {M n s : Nat} {ord : Nat → List Nat → List Nat} (hord : ∀ v l, (ord v l).Perm l) {vs : List Node} {F : Nat → Node} (hv : Vec n F vs) {dep c0 : Nat → ℚ} {G : Nat → Nat}
    {Pf : Nat → List Nat} (hpc : ∀ z < n, (F z).pc = G z % M) (hpreds : ∀ z < n, (F z).preds = Pf z) (hsn : ∀ z < n, (F z).succs.Nodup) (hsucc : ∀ z < n, ∀ w, w ∈ (F z).succs ↔ z ∈ Pf w)
    (hPlt : ∀ w, ∀ z ∈ Pf w, z < n ∧ z ≠ w ∧ w < n) (hPn : ∀ w, (Pf w).Nodup) (hdep : ∀ z < n, ∑ w ∈ Finset.range n, part M dep G Pf z w = dep z)
    {fin : List Nat} {b : Back} (h : BInv M n s dep c0 G Pf F fin b) {v : Nat} {q : List Nat} (hq : b.q = v :: q) :
    ∃ b', backBody ord vs s b = .ok (.inl b') ∧ BInv M n s dep c0 G Pf F (fin ++ [v]) b' := by
  have hmem := h.mem
  have hnd := h.nodup
  rw [hq] at hmem hnd
  obtain ⟨hvn, hvs, hvr⟩ := (hmem v).1 (by simp)
  have hvfin : v ∉ fin := by
    rw [List.nodup_append] at hnd
    exact fun hh => hnd.2.2 v hh v (by simp) rfl
  have hfinn : fin.Nodup := (List.nodup_append.1 hnd).1
  have hfinlt : ∀ x ∈ fin, x < n := fun x hx => ((hmem x).1 (by simp [hx])).1
  have hE : (fin.map (part M dep G Pf v)).sum = dep v := by
    rw [sum_list_countQ fin _ n hfinlt, ← hdep v hvn]
    refine Finset.sum_congr rfl fun w _ => ?_
    by_cases c : w ∈ fin
    · rw [List.count_eq_one_of_mem hfinn c]; simp
    · have : v ∉ Pf w := fun hh => c (hvs w ((hsucc v hvn w).2 hh))
      simp [part, this]
  have hself : v ∉ Pf v := fun hh => (hPlt v v hh).2.1 rfl
  have hpm : ∀ z, z ∈ ord v (F v).preds ↔ z ∈ Pf v := fun z => by rw [(hord v _).mem_iff, hpreds v hvn]
  obtain ⟨b', f1, f2, f3, f4, f5⟩ := backPred_fold (M := M) (G := G) hv hpc s hvn (dep v) (ord v (F v).preds) (b := { b with q := q }) (by
      rw [(hord v _).nodup_iff, hpreds v hvn]; exact hPn v) (by
      intro u hu
      rw [hpm] at hu
      obtain ⟨a1, a2, -⟩ := hPlt v u hu
      refine ⟨a1, a2, ?_⟩
      intro e
      exact hvfin (filter_zero.1 e v ((hsucc u a1 v).2 hu))) h.delta hE h.ct
  have hdv : (fin.map (part M dep G Pf v)).sum + (if v ∈ ord v (F v).preds then ((G v % M : Nat) : ℚ) / ((G v % M : Nat) : ℚ) * (1 + dep v) else 0) = dep v := by
    rw [hE, if_neg (by rw [hpm]; exact hself), add_zero]
  obtain ⟨e1, e2⟩ := h.cent.vset hvn ((c0 v + if v ∈ fin then dep v else 0) + dep v)
  refine ⟨{ b' with cent := b.cent.set v ((c0 v + if v ∈ fin then dep v else 0) + dep v) }, ?_, ?_, ?_, ?_, ?_, ?_⟩
  · unfold backBody
    rw [hq]
    simp only []
    rw [hv.vget hvn, res_bind_ok, f1, res_bind_ok, f2.vget hvn, res_bind_ok, f5, h.cent.vget hvn, res_bind_ok]
    rw [hdv, e1, res_bind_ok]; rfl
  · refine f2.congr fun z _ => ?_
    rw [List.map_append, List.sum_append]
    simp only [List.map_cons, List.map_nil, List.sum_cons, List.sum_nil, add_zero]
    congr 1
    unfold part
    simp only [hpm]
  · refine f3.congr fun z hz => ?_
    rw [filter_snoc (hsn z hz)]
    congr 1
    simp only [hpm, hsucc z hz v, hvfin, not_false_eq_true, and_true]
  · refine e2.congr fun z _ => ?_
    by_cases c : z = v
    · subst c; simp [hvfin]
    · rw [if_neg c]; simp [c]
  · show ((fin ++ [v]) ++ b'.q).Nodup
    rw [f4]
    have : (fin ++ [v]) ++ (q ++ (ord v (F v).preds).filter fun u => decide (((F u).succs.filter fun w => decide (w ∉ fin)).length = 1 ∧ u ≠ s)) =
        (fin ++ v :: q) ++ (ord v (F v).preds).filter fun u => decide (((F u).succs.filter fun w => decide (w ∉ fin)).length = 1 ∧ u ≠ s) := by simp
    show ((fin ++ [v]) ++ (q ++ (ord v (F v).preds).filter fun u => decide (((F u).succs.filter fun w => decide (w ∉ fin)).length = 1 ∧ u ≠ s))).Nodup
    rw [this, List.nodup_append]
    refine ⟨hnd, List.Nodup.filter _ ?_, ?_⟩
    · rw [(hord v _).nodup_iff, hpreds v hvn]; exact hPn v
    · rintro z hz _ hz' rfl
      rw [List.mem_filter, hpm] at hz'
      obtain ⟨a1, -, -⟩ := hPlt v z hz'.1
      exact hvfin (((hmem z).1 hz).2.1 v ((hsucc z a1 v).2 hz'.1))
  · intro z
    show z ∈ (fin ++ [v]) ++ b'.q ↔ _
    rw [f4]
    show z ∈ (fin ++ [v]) ++ (q ++ (ord v (F v).preds).filter fun u => decide (((F u).succs.filter fun w => decide (w ∉ fin)).length = 1 ∧ u ≠ s)) ↔ _
    have : z ∈ (fin ++ [v]) ++ (q ++ (ord v (F v).preds).filter fun u => decide (((F u).succs.filter fun w => decide (w ∉ fin)).length = 1 ∧ u ≠ s)) ↔
        z ∈ fin ++ v :: q ∨ (z ∈ Pf v ∧ ((F z).succs.filter fun w => decide (w ∉ fin)).length = 1 ∧ z ≠ s) := by
      simp only [List.mem_append, List.mem_cons, List.mem_filter, hpm, decide_eq_true_eq, List.not_mem_nil, or_false]
      tauto
    rw [this, hmem z]
    constructor
    · rintro (⟨a1, a2, a3⟩ | ⟨a1, a2, a3⟩)
      · exact ⟨a1, fun w hw => by simp [a2 w hw], a3⟩
      · obtain ⟨b1, -, -⟩ := hPlt v z a1
        refine ⟨b1, ?_, Or.inl a3⟩
        rw [← filter_zero, filter_snoc (hsn z b1), a2, if_pos ⟨(hsucc z b1 v).2 a1, hvfin⟩]
    · rintro ⟨a1, a2, a3⟩
      by_cases c : v ∈ (F z).succs
      · right
        refine ⟨(hsucc z a1 v).1 c, ?_, ?_⟩
        · have h0 := filter_zero.2 a2
          rw [filter_snoc (hsn z a1), if_pos ⟨c, hvfin⟩] at h0
          have : ((F z).succs.filter fun w => decide (w ∉ fin)).length ≠ 0 := fun e => hvfin (filter_zero.1 e v c)
          omega
        · rcases a3 with a3 | a3
          · exact a3
          · rintro rfl
            rw [a3] at c; simp at c
      · left
        refine ⟨a1, fun w hw => ?_, a3⟩
        have := a2 w hw
        rw [List.mem_append, List.mem_singleton] at this
        rcases this with h1 | h1
        · exact h1
        · subst h1; exact absurd hw c

theorem Searched.count {M inf : Nat} {g : Rows α} (hg : InRange g) {s : Nat} {done : List Nat} {D par : Nat → Option Nat} {G : Nat → Nat} {Pf : Nat → List Nat} {vs : List Node}
    (h : Searched M inf g s done D par G Pf vs) {d w : Nat} (hw : D w = some d) : G w = nw (simple g) d s w := by
  have : FInv M (simple g) s { Q := [], S := done.reverse, pc := (List.range (simple g).length).map fun v => G v % M, d := (List.range (simple g).length).map (Brandes.stored D), P := (List.range (simple g).length).map Pf }
      done D par G Pf := ⟨rfl, h.inv, h.cnt, ⟨by simp, fun v hv => by simp [hv]⟩, ⟨by simp, fun v hv => by simp [hv]⟩, ⟨by simp, fun v hv => by simp [hv]⟩⟩
  exact this.count (simple_inRange hg) rfl d w hw

theorem Searched.mem {M inf : Nat} {g : Rows α} {s : Nat} {done : List Nat} {D par : Nat → Option Nat} {G : Nat → Nat} {Pf : Nat → List Nat} {vs : List Node}
    (h : Searched M inf g s done D par G Pf vs) {v w : Nat} : v ∈ Pf w ↔ isNext D v w = true ∧ Edge (simple g) v w := by
  rw [← List.count_pos_iff, h.cnt.cnt]
  constructor
  · intro h1
    split at h1
    · rename_i hn
      split at h1
      · exact ⟨hn, mult_pos.1 h1⟩
      · omega
    · omega
  · rintro ⟨h1, h2⟩
    obtain ⟨x, h3, -⟩ := isNext_iff.1 h1
    have hd : v ∈ done := by
      have := (h.inv.disc v).2 ⟨x, h3⟩
      simpa using this
    rw [h1, if_pos rfl, if_pos hd]
    exact mult_pos.2 h2

theorem Searched.nodupP {M inf : Nat} {g : Rows α} {s : Nat} {done : List Nat} {D par : Nat → Option Nat} {G : Nat → Nat} {Pf : Nat → List Nat} {vs : List Node}
    (h : Searched M inf g s done D par G Pf vs) (w : Nat) : (Pf w).Nodup := by
  rw [List.nodup_iff_count_le_one]
  intro v
  rw [h.cnt.cnt]
  split
  · split
    · unfold mult
      rw [nbrs_simple]
      exact List.nodup_iff_count_le_one.1 (eraseDups_nodup _) w
    · omega
  · omega

/-- What the vertices add to `v` is the dependency on `v`. -/
theorem Searched.total {M inf : Nat} {g : Rows α} (hg : InRange g) {s : Nat} (hs : s < g.length) {done : List Nat} {D par : Nat → Option Nat} {G : Nat → Nat} {Pf : Nat → List Nat}
    {vs : List Node} (h : Searched M inf g s done D par G Pf vs) (hfit : ∀ t d, IsDist (simple g) s t d → nw (simple g) d s t < M) (v : Nat) :
    ∑ w ∈ Finset.range g.length, part M (dependency (simple g) s) G Pf v w = dependency (simple g) s v := by
  have hg' := simple_inRange hg
  have hs' : s < (simple g).length := by rw [simple_length]; exact hs
  have hdist := h.inv.dist
  have hmod : ∀ t d, D t = some d → G t % M = nw (simple g) d s t := by
    intro t d ht
    rw [h.count hg ht, Nat.mod_eq_of_lt (hfit t d ((hdist t d).1 ht))]
  cases hD : D v with
  | none =>
    rw [dependency_unreachable hg' hs' hdist hD]
    apply Finset.sum_eq_zero
    intro w _
    unfold part
    rw [if_neg]
    rw [h.mem, isNext_iff]
    rintro ⟨⟨x, h1, -⟩, -⟩
    rw [hD] at h1; cases h1
  | some i =>
    have h1 := acc_eq_dependency hg' hs' hdist hD
    rw [acc_rec hg' hs' hdist hD, simple_length] at h1
    rw [← add_left_cancel h1]
    refine Finset.sum_congr rfl fun w _ => ?_
    unfold part
    by_cases c : D w = some (i + 1)
    · rw [if_pos c]
      have hn : isNext D v w = true := isNext_iff.2 ⟨i, hD, c⟩
      by_cases e : Edge (simple g) v w
      · rw [if_pos (h.mem.2 ⟨hn, e⟩), hmod v i hD, hmod w (i + 1) c, acc_eq_dependency hg' hs' hdist c]
        have : mult (simple g) v w = 1 := by
          have h1 := mult_pos.2 e
          have h2 : mult (simple g) v w ≤ 1 := by
            unfold mult; rw [nbrs_simple]
            exact List.nodup_iff_count_le_one.1 (eraseDups_nodup _) w
          omega
        rw [this]; simp
      · rw [if_neg fun hh => e (h.mem.1 hh).2]
        have : mult (simple g) v w = 0 := by
          rcases Nat.eq_zero_or_pos (mult (simple g) v w) with h1 | h1
          · exact h1
          · exact absurd (mult_pos.1 h1) e
        rw [this]; simp
    · rw [if_neg c, if_neg]
      rw [h.mem, isNext_iff]
      rintro ⟨⟨x, h1, h2⟩, -⟩
      rw [hD] at h1; cases h1
      exact c h2

theorem back_gives {M inf : Nat} {ord : Nat → List Nat → List Nat} (hord : ∀ v l, (ord v l).Perm l) {g : Rows α} (hg : InRange g) {s : Nat} (hs : s < g.length) {done : List Nat}
    {D par : Nat → Option Nat} {G : Nat → Nat} {Pf : Nat → List Nat} {vs : List Node} (h : Searched M inf g s done D par G Pf vs)
    (hfit : ∀ t d, IsDist (simple g) s t d → nw (simple g) d s t < M) {cent : List ℚ} {c0 : Nat → ℚ} (hc : Vec g.length c0 cent) :
    Run.Gives (Run.loop (backBody ord vs s) { q := leaves vs, delta := List.replicate g.length 0, ct := vs.map fun x => x.succs.length, cent := cent })
      (Vec g.length fun v => c0 v + if v ≠ s then dependency (simple g) s v else 0) := by
  have hg' := simple_inRange hg
  have hs' : s < (simple g).length := by rw [simple_length]; exact hs
  have hdist := h.inv.dist
  obtain ⟨F, hv, hF⟩ := h.sim
  have hDlt : ∀ v d, D v = some d → v < g.length ∧ d < g.length := by
    intro v d hd
    have h1 := (hdist v d).1 hd
    have h2 := h1.1.lt hg' hs'
    have h3 := h1.lt_length hg' hs'
    rw [simple_length] at h2 h3
    exact ⟨h2, h3⟩
  have hPlt : ∀ w, ∀ z ∈ Pf w, z < g.length ∧ z ≠ w ∧ w < g.length := by
    intro w z hz
    obtain ⟨h1, h2⟩ := h.mem.1 hz
    obtain ⟨x, h3, h4⟩ := isNext_iff.1 h1
    refine ⟨(hDlt z x h3).1, ?_, (hDlt w _ h4).1⟩
    rintro rfl
    rw [h3] at h4; cases h4
  have hsucc : ∀ z < g.length, ∀ w, w ∈ (F z).succs ↔ z ∈ Pf w := fun z hz => (hF z hz).succs
  have hroot : D s = some 0 := h.inv.root0
  have hend : ∀ k fin b, BInv M g.length s (dependency (simple g) s) c0 G Pf F fin b → g.length - fin.length ≤ k →
      ∃ b' fin', Loop (backBody ord vs s) b (.ok b'.cent) ∧ BInv M g.length s (dependency (simple g) s) c0 G Pf F fin' b' ∧ b'.q = [] := by
    intro k
    induction k with
    | zero =>
      intro fin b hb hk
      have hq : b.q = [] := by
        have := nodup_length_le hb.nodup fun x hx => ((hb.mem x).1 hx).1
        rw [List.length_append] at this
        exact List.eq_nil_of_length_eq_zero (by omega)
      exact ⟨b, fin, .done (by unfold backBody; rw [hq]; rfl), hb, hq⟩
    | succ k ih =>
      intro fin b hb hk
      cases hq : b.q with
      | nil => exact ⟨b, fin, .done (by unfold backBody; rw [hq]; rfl), hb, hq⟩
      | cons v q =>
        obtain ⟨b1, e1, h1⟩ := back_step hord hv (fun z hz => (hF z hz).pc) (fun z hz => (hF z hz).preds) (fun z hz => (hF z hz).nodup) hsucc hPlt h.nodupP
          (fun z _ => h.total hg hs hfit z) hb hq
        have hlen := nodup_length_le hb.nodup fun x hx => ((hb.mem x).1 hx).1
        rw [hq, List.length_append, List.length_cons] at hlen
        obtain ⟨b2, fin2, e2, h2, h3⟩ := ih _ b1 h1 (by rw [List.length_append, List.length_singleton]; omega)
        exact ⟨b2, fin2, .step e1 e2, h2, h3⟩
  have hb0 : BInv M g.length s (dependency (simple g) s) c0 G Pf F [] { q := leaves vs, delta := List.replicate g.length 0, ct := vs.map fun x => x.succs.length, cent := cent } := by
    have hlv : ∀ v, v ∈ leaves vs ↔ v < g.length ∧ (F v).succs = [] := by
      intro v
      unfold leaves
      rw [List.mem_filter, List.mem_range, hv.1]
      constructor
      · rintro ⟨h1, h2⟩
        rw [hv.2 v h1] at h2
        exact ⟨h1, by simpa using h2⟩
      · rintro ⟨h1, h2⟩
        rw [hv.2 v h1]
        exact ⟨h1, by simp [h2]⟩
    constructor
    · exact (Vec.replicate g.length (0 : ℚ)).congr fun v _ => by simp
    · refine ⟨by simp [hv.1], fun v hvn => ?_⟩
      rw [List.getElem?_map, hv.2 v hvn]
      simp
    · exact hc.congr fun v _ => by simp
    · exact List.Nodup.filter _ List.nodup_range
    · intro v
      show v ∈ [] ++ leaves vs ↔ _
      rw [List.nil_append, hlv]
      constructor
      · rintro ⟨h1, h2⟩
        refine ⟨h1, by rw [h2]; simp, ?_⟩
        by_cases e : v = s
        · right; rw [← e]; exact h2
        · left; exact e
      · rintro ⟨h1, h2, -⟩
        refine ⟨h1, ?_⟩
        rw [List.eq_nil_iff_forall_not_mem]
        intro w hw
        exact absurd (h2 w hw) (by simp)
  obtain ⟨b, fin, h1, h2, h3⟩ := hend _ [] _ hb0 (Nat.le_refl _)
  refine ⟨⟨_, h1⟩, fun o ho => ⟨b.cent, Loop.det ho h1, h2.cent.congr fun v hvn => ?_⟩⟩
  congr 1
  have hmem := h2.mem
  rw [h3, List.append_nil] at hmem
  have hall : ∀ k v, v < g.length → v ≠ s → (∀ d, D v = some d → g.length - d ≤ k) → v ∈ fin := by
    intro k
    induction k with
    | zero =>
      intro v hvn hvs hk
      refine (hmem v).2 ⟨hvn, fun w hw => ?_, Or.inl hvs⟩
      obtain ⟨x, a1, a2⟩ := isNext_iff.1 (h.mem.1 ((hsucc v hvn w).1 hw)).1
      have := hk x a1
      have := (hDlt v x a1).2
      omega
    | succ k ih =>
      intro v hvn hvs hk
      refine (hmem v).2 ⟨hvn, fun w hw => ?_, Or.inl hvs⟩
      obtain ⟨x, a1, a2⟩ := isNext_iff.1 (h.mem.1 ((hsucc v hvn w).1 hw)).1
      refine ih w (hDlt w _ a2).1 ?_ ?_
      · rintro rfl
        rw [hroot] at a2; cases a2
      · intro d hd
        rw [a2] at hd; cases hd
        have := hk x a1
        omega
  by_cases c : v = s
  · subst c
    simp only [ne_eq, not_true, if_false]
    split
    · rename_i hf
      have hss : (F v).succs = [] := by
        rcases ((hmem v).1 hf).2.2 with e | e
        · exact absurd rfl e
        · exact e
      rw [← h.total hg hs hfit v]
      apply Finset.sum_eq_zero
      intro w _
      unfold part
      rw [if_neg]
      intro hh
      have := (hsucc v hvn w).2 hh
      rw [hss] at this; simp at this
    · rfl
  · rw [if_pos (hall g.length v hvn c fun d _ => by omega), if_pos c]

end NW.BcWork
