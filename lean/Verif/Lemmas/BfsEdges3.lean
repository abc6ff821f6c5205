import Verif.Model.BfsEdges
import Verif.Lemmas.Fifo

/-! # Lemmas: `bfs_edge_range3` -/

namespace NW.BfsEdges
open Spec Fifo

variable {α : Type}

/-- White are the vertices without a recorded distance. -/
def Cols (n : Nat) (D : Nat → Option Nat) (cols : List Color) : Prop :=
  cols.length = n ∧ ∀ v, v < n → ∃ c, vget cols v = .ok c ∧ (c = .white ↔ D v = none)

theorem Cols.init {n s : Nat} (hs : s < n) : Cols n (upd (fun _ => none) s 0) ((List.replicate n Color.white).set s .grey) := by
  refine ⟨by simp, fun v hv => ?_⟩
  rcases eq_or_ne v s with e | e
  · subst e
    exact ⟨.grey, by rw [vget_eq_ok]; simp [hv], by simp [upd]⟩
  · exact ⟨.white, by rw [vget_eq_ok, List.getElem?_set_ne (Ne.symm e)]; simp [hv], by simp [upd, e]⟩

theorem Cols.set {n : Nat} {D : Nat → Option Nat} {cols : List Color} (h : Cols n D cols) {w : Nat} (hw : w < n) (d : Nat) :
    Cols n (upd D w d) (cols.set w .grey) := by
  refine ⟨by simp [h.1], fun v hv => ?_⟩
  rcases eq_or_ne v w with e | e
  · subst e
    exact ⟨.grey, by rw [vget_eq_ok]; simp [h.1, hv], by simp [upd]⟩
  · obtain ⟨c, h1, h2⟩ := h.2 v hv
    refine ⟨c, by rw [vget_eq_ok, List.getElem?_set_ne (Ne.symm e)]; exact vget_eq_ok.1 h1, by simp [upd, e, h2]⟩

theorem Cols.black {n : Nat} {D : Nat → Option Nat} {cols : List Color} (h : Cols n D cols) {w : Nat} (hw : w < n) {d : Nat} (hd : D w = some d) :
    vset cols w .black = .ok (cols.set w .black) ∧ Cols n D (cols.set w .black) := by
  refine ⟨vset_of_lt (by rw [h.1]; exact hw), by simp [h.1], fun v hv => ?_⟩
  rcases eq_or_ne v w with e | e
  · subst e
    exact ⟨.black, by rw [vget_eq_ok]; simp [h.1, hv], by simp [hd]⟩
  · obtain ⟨c, h1, h2⟩ := h.2 v hv
    exact ⟨c, by rw [vget_eq_ok, List.getElem?_set_ne (Ne.symm e)]; exact vget_eq_ok.1 h1, h2⟩

theorem vget_row {g : Rows α} {v : Nat} (h : v < g.length) : vget g v = .ok (g.getD v []) := by
  rw [vget_of_lt h, List.getD_eq_getElem?_getD, List.getElem?_eq_getElem h]; rfl

theorem mem_row {g : Rows α} {v : Nat} {x : Nat × α} (h : x ∈ g.getD v []) : Edge g v x.1 := by
  unfold Edge nbrs
  exact List.mem_map_of_mem h

theorem pushWhite_spec {g : Rows α} (hg : InRange g) {s : Nat} {done : List Nat} {v : Nat} (rest : List Nat) :
    ∀ (row : List (Nat × α)) (sc q1 : List Nat) (cols : List Color) (D par : Nat → Option Nat),
      Mid g s done v sc (rest ++ q1) D par → Cols g.length D cols → (∀ x ∈ row, Edge g v x.1) → (∀ x ∈ q1, par x = some v) →
      ∃ cols' q1' D' par', pushWhite cols q1 row = .ok (cols', q1') ∧ Mid g s done v (sc ++ row.map Prod.fst) (rest ++ q1') D' par' ∧
        Cols g.length D' cols' ∧ (∀ x ∈ q1', par' x = some v) ∧ (∀ x p, par x = some p → par' x = some p) := by
  intro row
  induction row with
  | nil =>
    intro sc q1 cols D par hm hc _ hq
    exact ⟨cols, q1, D, par, rfl, by simpa using hm, hc, hq, fun _ _ h => h⟩
  | cons x xs ih =>
    intro sc q1 cols D par hm hc he hq
    have hx := he x (by simp)
    have hxn := hg v x.1 hx
    obtain ⟨c, h1, h2⟩ := hc.2 _ hxn
    unfold pushWhite
    rw [h1, res_bind_ok]
    have he' : ∀ y ∈ xs, Edge g v y.1 := fun y hy => he y (List.mem_cons_of_mem _ hy)
    by_cases e : c = .white
    · rw [if_pos e, vset_of_lt (by rw [hc.1]; exact hxn), res_bind_ok]
      have hw := h2.1 e
      obtain ⟨dv, hdv⟩ := hm.self
      have hm' := hm.discover hw hx hdv
      rw [List.append_assoc] at hm'
      have hold : ∀ y p, par y = some p → upd par x.1 v y = some p := by
        intro y p hp
        have : y ≠ x.1 := by
          rintro rfl
          obtain ⟨d, hd⟩ := (hm.parD _).1 ⟨_, hp⟩
          rw [hw] at hd; cases hd
        simp [upd, this, hp]
      obtain ⟨cols', q1', D', par', a, b, c', d, e'⟩ := ih (sc ++ [x.1]) (q1 ++ [x.1]) _ _ _ hm' (hc.set hxn (dv + 1)) he' (by
        intro y hy
        rcases List.mem_append.1 hy with hy | hy
        · exact hold y v (hq y hy)
        · rw [List.mem_singleton] at hy; subst hy; simp [upd])
      exact ⟨cols', q1', D', par', a, by simpa using b, c', d, fun y p hp => e' y p (hold y p hp)⟩
    · rw [if_neg e]
      have hw : D x.1 ≠ none := fun h => e (h2.2 h)
      obtain ⟨d, hd⟩ := Option.ne_none_iff_exists'.1 hw
      obtain ⟨cols', q1', D', par', a, b, c', d, e'⟩ := ih (sc ++ [x.1]) q1 cols D par (hm.seen hd) hc he' hq
      exact ⟨cols', q1', D', par', a, by simpa using b, c', d, e'⟩

/-- Nothing to push when every neighbour has been discovered. -/
theorem pushWhite_none {n : Nat} {D : Nat → Option Nat} {cols : List Color} (hc : Cols n D cols) (row : List (Nat × α)) (q : List Nat)
    (h : ∀ x ∈ row, x.1 < n ∧ ∃ d, D x.1 = some d) : pushWhite cols q row = .ok (cols, q) := by
  induction row with
  | nil => rfl
  | cons x xs ih =>
    obtain ⟨hx, d, hd⟩ := h x (by simp)
    obtain ⟨c, h1, h2⟩ := hc.2 _ hx
    unfold pushWhite
    rw [h1, res_bind_ok, if_neg (fun e => by rw [h2.1 e] at hd; cases hd)]
    exact ih fun y hy => h y (List.mem_cons_of_mem _ hy)

theorem refill_spec {g : Rows α} (hg : InRange g) {s : Nat} (hs : s < g.length) :
    ∀ (q0 done : List Nat) (cols : List Color) (D par : Nat → Option Nat), Inv g s done q0 D par → Cols g.length D cols →
      ∃ st D' par', refill g cols q0 = .ok st ∧ Cols g.length D' st.colors ∧ (∀ x p, par x = some p → par' x = some p) ∧
        ((st.q0 = [] ∧ st.q1 = [] ∧ Inv g s (done ++ q0) [] D' par') ∨
          ∃ pre v rest, q0 = pre ++ v :: rest ∧ st.q0 = v :: rest ∧ st.q1 ≠ [] ∧ Inv g s (done ++ pre ++ [v]) (rest ++ st.q1) D' par' ∧
            ∀ x ∈ st.q1, par' x = some v) := by
  intro q0
  induction q0 with
  | nil =>
    intro done cols D par hI hc
    exact ⟨_, D, par, rfl, hc, fun _ _ h => h, Or.inl ⟨rfl, rfl, by simpa using hI⟩⟩
  | cons v q0 ih =>
    intro done cols D par hI hc
    have hv : v < g.length := hI.lt hg hs (by simp)
    unfold refill
    rw [vget_row hv, res_bind_ok]
    obtain ⟨cols', q1', D', par', a, b, c, d, e⟩ := pushWhite_spec hg q0 (g.getD v []) [] [] cols D par (by simpa using hI.start) hc
      (fun x hx => mem_row hx) (by simp)
    rw [a, res_bind_ok]
    have hfin : Inv g s (done ++ [v]) (q0 ++ q1') D' par' := by
      apply Mid.finish
      simpa [nbrs] using b
    by_cases hq : q1' = []
    · subst hq
      rw [List.append_nil] at hfin
      obtain ⟨dv, hdv⟩ := (hfin.disc v).1 (by simp)
      obtain ⟨k1, k2⟩ := c.black hv hdv
      simp only [if_true]
      rw [k1, res_bind_ok]
      obtain ⟨st, D'', par'', h1, h2, h3, h4⟩ := ih _ _ _ _ hfin k2
      refine ⟨st, D'', par'', h1, h2, fun x p hp => h3 x p (e x p hp), ?_⟩
      rcases h4 with ⟨h5, h6, h7⟩ | ⟨pre, w, rest, h5, h6, h7, h8, h9⟩
      · exact Or.inl ⟨h5, h6, by simpa using h7⟩
      · exact Or.inr ⟨v :: pre, w, rest, by rw [h5]; rfl, h6, h7, by simpa using h8, h9⟩
    · simp only [if_neg hq]
      exact ⟨_, D', par', rfl, c, e, Or.inr ⟨[], v, q0, rfl, rfl, hq, by simpa using hfin, d⟩⟩

/-- Scanning once more a vertex whose neighbours are all discovered takes it off the queue. -/
theorem refill_again {g : Rows α} (hg : InRange g) {s : Nat} (hs : s < g.length) {done q0 : List Nat} {cols : List Color} {D par : Nat → Option Nat}
    {v : Nat} (hI : Inv g s (done ++ [v]) q0 D par) (hc : Cols g.length D cols) :
    ∃ cols', Cols g.length D cols' ∧ refill g cols (v :: q0) = refill g cols' q0 := by
  have hv : v < g.length := hI.lt hg hs (by simp)
  obtain ⟨dv, hdv⟩ := (hI.disc v).1 (by simp)
  obtain ⟨k1, k2⟩ := hc.black hv hdv
  refine ⟨_, k2, ?_⟩
  conv => lhs; unfold refill
  rw [vget_row hv, res_bind_ok, pushWhite_none hc _ _ (fun x hx => ?_), res_bind_ok]
  · simp only [if_true]
    rw [k1, res_bind_ok]
  · obtain ⟨_, y, _, hy, _⟩ := hI.closed v (by simp) x.1 (mem_row hx)
    exact ⟨hg v x.1 (mem_row hx), y, hy⟩

/-- The state of the iterator after the pairs `acc`. -/
def At3 (g : Rows α) (s : Nat) (D par : Nat → Option Nat) (st : Range3) (acc : List (Nat × Nat)) : Prop :=
  Cols g.length D st.colors ∧ (∀ e ∈ acc, par e.2 = some e.1) ∧
  ((∃ done v rest, st.q0 = v :: rest ∧ st.q1 ≠ [] ∧ Inv g s (done ++ [v]) (rest ++ st.q1) D par ∧ (∀ x ∈ st.q1, par x = some v) ∧
      s :: acc.map Prod.snd = done ++ v :: rest) ∨
    (st.q0 = [] ∧ Inv g s (s :: acc.map Prod.snd) [] D par))

theorem next3_spec {g : Rows α} (hg : InRange g) {s : Nat} (hs : s < g.length) {D par : Nat → Option Nat} {st : Range3} {acc : List (Nat × Nat)}
    (h : At3 g s D par st acc) (hq : st.q0 ≠ []) :
    ∃ x st' D' par', deref3 st = .ok x ∧ next3 g st = .ok st' ∧ At3 g s D' par' st' (acc ++ [x]) := by
  obtain ⟨hc, hacc, ⟨done, v, rest, h0, h1, hI, hpar, hord⟩ | ⟨h0, -⟩⟩ := h
  · obtain ⟨u, q1, e1⟩ := List.exists_cons_of_ne_nil h1
    rw [e1] at hI hpar
    have hu : u < g.length := hI.lt hg hs (by simp)
    obtain ⟨du, hdu⟩ := (hI.disc u).1 (by simp)
    obtain ⟨k1, k2⟩ := hc.black hu hdu
    have hd : deref3 st = .ok (v, u) := by unfold deref3; rw [h0, e1]; rfl
    have hacc' : ∀ e ∈ acc ++ [(v, u)], par e.2 = some e.1 := by
      intro e he
      rcases List.mem_append.1 he with he | he
      · exact hacc e he
      · rw [List.mem_singleton] at he; subst he; exact hpar u (by simp)
    have hord' : s :: (acc ++ [(v, u)]).map Prod.snd = done ++ v :: (rest ++ [u]) := by
      rw [List.map_append, ← List.cons_append, hord]; simp
    cases q1 with
    | cons w ws =>
      refine ⟨_, ⟨st.colors.set u .black, v :: (rest ++ [u]), w :: ws⟩, D, par, hd, ?_, k2, hacc', Or.inl ⟨done, v, rest ++ [u], rfl, by simp, by simpa using hI,
        fun x hx => hpar x (List.mem_cons_of_mem _ hx), hord'⟩⟩
      unfold next3
      rw [e1]
      simp only [k1, res_bind_ok, h0, List.cons_append]
      rfl
    | nil =>
      obtain ⟨cols', m1, m2⟩ := refill_again hg hs (q0 := rest ++ [u]) hI k2
      obtain ⟨st', D', par', a, b, c, d⟩ := refill_spec hg hs _ _ _ _ _ hI m1
      refine ⟨_, st', D', par', hd, ?_, b, fun e he => c _ _ (hacc' e he), ?_⟩
      · unfold next3
        rw [e1]
        simp only [k1, res_bind_ok, h0, List.cons_append]
        rw [m2, a]
      · rcases d with ⟨d0, -, d2⟩ | ⟨pre, w, rest', d1, d2, d3, d4, d5⟩
        · refine Or.inr ⟨d0, ?_⟩
          rw [hord']
          simpa using d2
        · refine Or.inl ⟨done ++ [v] ++ pre, w, rest', d2, d3, d4, d5, ?_⟩
          rw [hord', d1]; simp
  · exact absurd h0 hq

end NW.BfsEdges
