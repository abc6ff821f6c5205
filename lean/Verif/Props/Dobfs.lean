import Verif.Model.Dobfs
import Verif.Lemmas.Dist
import Verif.Props.Bfs

/-! # C23: direction-optimizing breadth-first search under every schedule -/

namespace NW.Dobfs
open Spec Bfs

variable {α : Type}

/-- What the caller must provide: in-range neighbours, the transpose as second graph, a root that is a vertex, at least one bin, and positive
`alpha` and `beta`; the vertex type can represent one value more than the vertices. -/
structure Usable (c : Args α) (root : Nat) : Prop where
  inRange : InRange c.out
  transpose : IsTranspose c.out c.inn
  rootLt : root < c.out.length
  small : c.out.length ≤ c.inf
  binsPos : 0 < c.bins
  alphaPos : 0 < c.alpha
  betaPos : 0 < c.beta

/-- `pu` is a good parent of `u`. -/
def Good (g : Rows α) (root u pu : Nat) : Prop :=
  if u = root then pu = root else Edge g pu u ∧ ∃ d, IsDist g root pu d ∧ IsDist g root u (d + 1)

/-- The parents after `l` complete levels. -/
def Lev (c : Args α) (root l : Nat) (par : List Nat) : Prop :=
  par.length = c.out.length ∧ ∀ u pu, par[u]? = some pu →
    ((pu ≠ c.inf ↔ Near c.out root l u) ∧ (pu ≠ c.inf → Good c.out root u pu))

theorem Lev.final' {c : Args α} {root l : Nat} {par : List Nat} (hin : InRange c.out) (hroot : root < c.out.length) (h : Lev c root l par)
    (hend : ¬ ∃ v, IsDist c.out root v (l + 1)) : par.length = c.out.length ∧ BfsTree c.out root (parentOf c.inf par) := by
  refine ⟨h.1, ?_⟩
  have hget : ∀ u, u < c.out.length → par[u]? = some (par.getD u c.inf) := by
    intro u hu
    rw [List.getD_eq_getElem?_getD, List.getElem?_eq_getElem (by rw [h.1]; exact hu)]; rfl
  have hpo : ∀ u p, parentOf c.inf par u = some p ↔ par[u]? = some p ∧ p ≠ c.inf := by
    intro u p
    unfold parentOf
    cases hp : par[u]? with
    | none => simp
    | some x =>
      simp only [Option.some.injEq]
      split
      · constructor
        · intro h; cases h
        · rintro ⟨rfl, h⟩; contradiction
      · constructor
        · intro h; cases h; exact ⟨rfl, by assumption⟩
        · rintro ⟨rfl, _⟩; rfl
  have hreach : ∀ v, (∃ p, parentOf c.inf par v = some p) ↔ Reachable c.out root v := by
    intro v
    constructor
    · rintro ⟨p, hp⟩
      obtain ⟨h1, h2⟩ := (hpo v p).1 hp
      obtain ⟨d, _, hd⟩ := (h.2 v p h1).1.1 h2
      exact ⟨d, hd.1⟩
    · intro hr
      have hn := near_of_empty hend hr
      obtain ⟨k, hk⟩ := hr
      have hv := hk.lt hin hroot
      exact ⟨_, (hpo v _).2 ⟨hget v hv, (h.2 v _ (hget v hv)).1.2 hn⟩⟩
  constructor
  · obtain ⟨p, hp⟩ := (hreach root).2 ⟨0, .nil⟩
    obtain ⟨h1, h2⟩ := (hpo root p).1 hp
    have := (h.2 root p h1).2 h2
    unfold Good at this
    rw [if_pos rfl] at this
    rw [hp, this]
  · exact hreach
  · intro v u hv hu
    obtain ⟨h1, h2⟩ := (hpo v u).1 hu
    have := (h.2 v u h1).2 h2
    unfold Good at this
    rw [if_neg hv] at this
    exact this

theorem Lev.final {c : Args α} {root l : Nat} {par : List Nat} (hc : Usable c root) (h : Lev c root l par)
    (hend : ¬ ∃ v, IsDist c.out root v (l + 1)) : par.length = c.out.length ∧ BfsTree c.out root (parentOf c.inf par) :=
  h.final' hc.inRange hc.rootLt hend

/-! ## Top-down rounds -/

/-- The neighbour a task is about to claim. -/
def TdPc.pending : TdPc → List Nat
  | .tryCas v => [v]
  | _ => []

structure TdInv (c : Args α) (root l : Nat) (ts : List (TdTask α)) (q2 : List (List Nat)) (par : List Nat) : Prop where
  len : par.length = c.out.length
  pars : ∀ u pu, par[u]? = some pu → (Near c.out root l u → pu ≠ c.inf) ∧
    (pu ≠ c.inf → Near c.out root (l + 1) u ∧ Good c.out root u pu)
  task : ∀ (i : Nat) (t : TdTask α), ts[i]? = some t → IsDist c.out root t.u l ∧
    (∃ sc : List Nat, nbrs c.out t.u = sc ++ t.pc.pending ++ t.rest.map Prod.fst ∧ ∀ w ∈ sc, ∃ pw, par[w]? = some pw ∧ pw ≠ c.inf) ∧
    (∀ v, t.pc = .push v → IsDist c.out root v (l + 1))
  cover : ∀ u, IsDist c.out root u l → ∃ (i : Nat) (t : TdTask α), ts[i]? = some t ∧ t.u = u
  bins : q2.length = c.bins
  new : ∀ v pv, par[v]? = some pv → pv ≠ c.inf → IsDist c.out root v (l + 1) →
    v ∈ q2.flatten ∨ ∃ (i : Nat) (t : TdTask α), ts[i]? = some t ∧ t.pc = .push v
  newq : ∀ v ∈ q2.flatten, IsDist c.out root v (l + 1)

def TdTask.weight (t : TdTask α) : Nat :=
  3 * t.rest.length + match t.pc with | .idle => 0 | .tryCas _ => 2 | .push _ => 1

theorem mem_flatten_set {q : List (List Nat)} {b : Nat} {l : List Nat} (h : q[b]? = some l) (v w : Nat) :
    w ∈ (q.set b (l ++ [v])).flatten ↔ w ∈ q.flatten ∨ w = v := by
  have hb := (List.getElem?_eq_some_iff.1 h).1
  simp only [List.mem_flatten]
  constructor
  · rintro ⟨l', hl', hw⟩
    obtain ⟨j, hj⟩ := List.getElem?_of_mem hl'
    rcases getElem?_set_cases hj with ⟨rfl, rfl⟩ | ⟨_, hj⟩
    · simp only [List.mem_append, List.mem_singleton] at hw
      rcases hw with hw | hw
      · exact Or.inl ⟨l, List.mem_of_getElem? h, hw⟩
      · exact Or.inr hw
    · exact Or.inl ⟨l', List.mem_of_getElem? hj, hw⟩
  · rintro (⟨l', hl', hw⟩ | rfl)
    · obtain ⟨j, hj⟩ := List.getElem?_of_mem hl'
      by_cases c : b = j
      · subst c
        rw [h] at hj; cases hj
        exact ⟨l ++ [v], List.mem_of_getElem? (getElem?_set_same h), by simp [hw]⟩
      · exact ⟨l', List.mem_of_getElem? (by rw [getElem?_set_other c]; exact hj), hw⟩
    · exact ⟨l ++ [w], List.mem_of_getElem? (getElem?_set_same h), by simp⟩

theorem tdTask_step {c : Args α} {root l : Nat} (hc : Usable c root) {ts : List (TdTask α)} {q2 : List (List Nat)} {par : List Nat}
    (hI : TdInv c root l ts q2 par) {i : Nat} {t : TdTask α} (hi : ts[i]? = some t) (hf : ¬ t.finished) :
    ∃ q2' par' t', tdTask c q2 par t = .ok (q2', par', t') ∧ t'.weight < t.weight ∧ TdInv c root l (ts.set i t') q2' par' := by
  obtain ⟨u, rest, pc, count⟩ := t
  obtain ⟨hu, ⟨sc, hsc, hscp⟩, hpush⟩ := hI.task i _ hi
  simp only at hu hsc hpush
  have hun : u < c.out.length := hu.1.lt hc.inRange hc.rootLt
  have hgetp : ∀ v, v < c.out.length → ∃ pv, par[v]? = some pv := fun v hv =>
    ⟨_, List.getElem?_eq_getElem (by rw [hI.len]; exact hv)⟩
  cases pc with
  | idle =>
    cases rest with
    | nil => exact absurd ⟨rfl, rfl⟩ hf
    | cons x xs =>
      have hedge : Edge c.out u x.1 := by rw [Edge, hsc]; simp
      obtain ⟨pv, hpv⟩ := hgetp x.1 (hc.inRange _ _ hedge)
      simp only [tdTask]
      rw [vget_eq_ok.2 hpv, res_bind_ok]
      by_cases cc : pv = c.inf
      · rw [if_pos cc]
        refine ⟨_, _, _, rfl, by simp only [TdTask.weight, List.length_cons]; omega, { hI with task := ?_, cover := ?_, new := ?_ }⟩
        · intro j t' hj
          rcases getElem?_set_cases hj with ⟨rfl, rfl⟩ | ⟨hne, hj⟩
          · exact ⟨hu, ⟨sc, by rw [hsc]; simp [TdPc.pending], hscp⟩, by simp⟩
          · exact hI.task j t' hj
        · intro w hw
          obtain ⟨j, t', hj, htu⟩ := hI.cover w hw
          by_cases cj : i = j
          · subst cj; rw [hi] at hj; cases hj
            exact ⟨i, _, getElem?_set_same hi, htu⟩
          · exact ⟨j, t', by rw [getElem?_set_other cj]; exact hj, htu⟩
        · intro v pv' h1 h2 h3
          rcases hI.new v pv' h1 h2 h3 with h | ⟨j, t', hj, htp⟩
          · exact Or.inl h
          · have cj : i ≠ j := by rintro rfl; rw [hi] at hj; cases hj; cases htp
            exact Or.inr ⟨j, t', by rw [getElem?_set_other cj]; exact hj, htp⟩
      · rw [if_neg cc]
        refine ⟨_, _, _, rfl, by simp only [TdTask.weight, List.length_cons]; omega, { hI with task := ?_, cover := ?_, new := ?_ }⟩
        · intro j t' hj
          rcases getElem?_set_cases hj with ⟨rfl, rfl⟩ | ⟨hne, hj⟩
          · refine ⟨hu, ⟨sc ++ [x.1], by rw [hsc]; simp [TdPc.pending], ?_⟩, by simp⟩
            intro w hw
            rcases List.mem_append.1 hw with hw | hw
            · exact hscp w hw
            · simp at hw; subst hw; exact ⟨pv, hpv, cc⟩
          · exact hI.task j t' hj
        · intro w hw
          obtain ⟨j, t', hj, htu⟩ := hI.cover w hw
          by_cases cj : i = j
          · subst cj; rw [hi] at hj; cases hj
            exact ⟨i, _, getElem?_set_same hi, htu⟩
          · exact ⟨j, t', by rw [getElem?_set_other cj]; exact hj, htu⟩
        · intro v pv' h1 h2 h3
          rcases hI.new v pv' h1 h2 h3 with h | ⟨j, t', hj, htp⟩
          · exact Or.inl h
          · have cj : i ≠ j := by rintro rfl; rw [hi] at hj; cases hj; cases htp
            exact Or.inr ⟨j, t', by rw [getElem?_set_other cj]; exact hj, htp⟩
  | tryCas v =>
    have hedge : Edge c.out u v := by rw [Edge, hsc]; simp [TdPc.pending]
    have hvn := hc.inRange _ _ hedge
    obtain ⟨pv, hpv⟩ := hgetp v hvn
    simp only [tdTask]
    rw [vget_eq_ok.2 hpv, res_bind_ok]
    by_cases cc : pv = c.inf
    · have hnn : ¬ Near c.out root l v := fun h => (hI.pars v pv hpv).1 h cc
      have hdv := (dist_of_edge hu.near hedge hnn).2
      have hvr : v ≠ root := by
        rintro rfl
        exact hnn ⟨0, Nat.zero_le _, IsDist.zero _ _⟩
      have hui : u ≠ c.inf := by have := hc.small; omega
      rw [if_pos cc, vset_of_lt (by rw [hI.len]; exact hvn), res_bind_ok]
      have hkeep : ∀ (w pw : Nat), par[w]? = some pw → pw ≠ c.inf → ∃ pw' : Nat, (par.set v u)[w]? = some pw' ∧ pw' ≠ c.inf := by
        intro w pw h1 h2
        by_cases cw : v = w
        · subst cw; exact ⟨u, getElem?_set_same hpv, hui⟩
        · exact ⟨pw, by rw [getElem?_set_other cw]; exact h1, h2⟩
      refine ⟨_, _, _, rfl, by simp only [TdTask.weight]; omega, ⟨by simp [hI.len], ?_, ?_, ?_, hI.bins, ?_, hI.newq⟩⟩
      · intro w pw hw
        rcases getElem?_set_cases hw with ⟨rfl, rfl⟩ | ⟨hne, hw⟩
        · refine ⟨fun _ => hui, fun _ => ⟨hdv.near, ?_⟩⟩
          unfold Good
          rw [if_neg hvr]
          exact ⟨hedge, l, hu, hdv⟩
        · exact hI.pars w pw hw
      · intro j t' hj
        rcases getElem?_set_cases hj with ⟨rfl, rfl⟩ | ⟨hne, hj⟩
        · refine ⟨hu, ⟨sc ++ [v], by rw [hsc]; simp [TdPc.pending], ?_⟩, ?_⟩
          · intro w hw
            rcases List.mem_append.1 hw with hw | hw
            · obtain ⟨pw, h1, h2⟩ := hscp w hw
              exact hkeep w pw h1 h2
            · simp at hw; subst hw; exact ⟨u, getElem?_set_same hpv, hui⟩
          · intro v' hv'
            simp at hv'; subst hv'; exact hdv
        · obtain ⟨h1, ⟨sc', h2, h3⟩, h4⟩ := hI.task j t' hj
          refine ⟨h1, ⟨sc', h2, ?_⟩, h4⟩
          intro w hw
          obtain ⟨pw, h5, h6⟩ := h3 w hw
          exact hkeep w pw h5 h6
      · intro w hw
        obtain ⟨j, t', hj, htu⟩ := hI.cover w hw
        by_cases cj : i = j
        · subst cj; rw [hi] at hj; cases hj
          exact ⟨i, _, getElem?_set_same hi, htu⟩
        · exact ⟨j, t', by rw [getElem?_set_other cj]; exact hj, htu⟩
      · intro w pw h1 h2 h3
        rcases getElem?_set_cases h1 with ⟨rfl, rfl⟩ | ⟨hne, h1⟩
        · exact Or.inr ⟨i, _, getElem?_set_same hi, rfl⟩
        · rcases hI.new w pw h1 h2 h3 with h | ⟨j, t', hj, htp⟩
          · exact Or.inl h
          · have cj : i ≠ j := by rintro rfl; rw [hi] at hj; cases hj; cases htp
            exact Or.inr ⟨j, t', by rw [getElem?_set_other cj]; exact hj, htp⟩
    · rw [if_neg cc]
      refine ⟨_, _, _, rfl, by simp only [TdTask.weight]; omega, { hI with task := ?_, cover := ?_, new := ?_ }⟩
      · intro j t' hj
        rcases getElem?_set_cases hj with ⟨rfl, rfl⟩ | ⟨hne, hj⟩
        · refine ⟨hu, ⟨sc ++ [v], by rw [hsc]; simp [TdPc.pending], ?_⟩, by simp⟩
          intro w hw
          rcases List.mem_append.1 hw with hw | hw
          · exact hscp w hw
          · simp at hw; subst hw; exact ⟨pv, hpv, cc⟩
        · exact hI.task j t' hj
      · intro w hw
        obtain ⟨j, t', hj, htu⟩ := hI.cover w hw
        by_cases cj : i = j
        · subst cj; rw [hi] at hj; cases hj
          exact ⟨i, _, getElem?_set_same hi, htu⟩
        · exact ⟨j, t', by rw [getElem?_set_other cj]; exact hj, htu⟩
      · intro w pw h1 h2 h3
        rcases hI.new w pw h1 h2 h3 with h | ⟨j, t', hj, htp⟩
        · exact Or.inl h
        · have cj : i ≠ j := by rintro rfl; rw [hi] at hj; cases hj; cases htp
          exact Or.inr ⟨j, t', by rw [getElem?_set_other cj]; exact hj, htp⟩
  | push v =>
    have hdv := hpush v rfl
    have hvn := hdv.1.lt hc.inRange hc.rootLt
    have hb : u % c.bins < q2.length := by rw [hI.bins]; exact Nat.mod_lt _ hc.binsPos
    have hgb : q2[u % c.bins]? = some q2[u % c.bins] := List.getElem?_eq_getElem hb
    simp only [tdTask]
    rw [vget_eq_ok.2 hgb, res_bind_ok, vset_of_lt hb, res_bind_ok, vget_row hvn, res_bind_ok]
    refine ⟨_, _, _, rfl, by simp only [TdTask.weight]; omega, { hI with task := ?_, cover := ?_, bins := by simp [hI.bins], new := ?_, newq := ?_ }⟩
    · intro j t' hj
      rcases getElem?_set_cases hj with ⟨rfl, rfl⟩ | ⟨hne, hj⟩
      · exact ⟨hu, ⟨sc, by rw [hsc]; simp [TdPc.pending], hscp⟩, by simp⟩
      · exact hI.task j t' hj
    · intro w hw
      obtain ⟨j, t', hj, htu⟩ := hI.cover w hw
      by_cases cj : i = j
      · subst cj; rw [hi] at hj; cases hj
        exact ⟨i, _, getElem?_set_same hi, htu⟩
      · exact ⟨j, t', by rw [getElem?_set_other cj]; exact hj, htu⟩
    · intro w pw h1 h2 h3
      rw [mem_flatten_set hgb]
      rcases hI.new w pw h1 h2 h3 with h | ⟨j, t', hj, htp⟩
      · exact Or.inl (Or.inl h)
      · by_cases cj : i = j
        · subst cj; rw [hi] at hj; cases hj
          simp at htp
          exact Or.inl (Or.inr htp.symm)
        · exact Or.inr ⟨j, t', by rw [getElem?_set_other cj]; exact hj, htp⟩
    · intro w hw
      rw [mem_flatten_set hgb] at hw
      rcases hw with hw | rfl
      · exact hI.newq w hw
      · exact hdv

/-- A top-down round, whatever the order of the steps, ends with all tasks finished. -/
theorem td_phase {c : Args α} {root l : Nat} (hc : Usable c root) {Q : List Nat → Prop} {front curr : List Bool} {edges : Nat}
    (hjoin : ∀ ts q2 par, TdInv c root l ts q2 par → (∀ t ∈ ts, t.finished) → Sure (Step c) Q (.td ts q2 par front curr edges)) :
    ∀ ts q2 par, TdInv c root l ts q2 par → Sure (Step c) Q (.td ts q2 par front curr edges) := by
  intro ts
  generalize hm : (ts.map TdTask.weight).sum = m
  induction m using Nat.strongRecOn generalizing ts with
  | ind m ih =>
    intro q2 par hI
    by_cases hall : ∀ t ∈ ts, t.finished
    · exact hjoin ts q2 par hI hall
    · push Not at hall
      obtain ⟨t₀, ht₀, hf₀⟩ := hall
      obtain ⟨i₀, hi₀⟩ := List.getElem?_of_mem ht₀
      have hstep : ∀ o, Step c (.td ts q2 par front curr edges) o →
          ∃ ts' q2' par', o = .ok (.inl (.td ts' q2' par' front curr edges)) ∧ (ts'.map TdTask.weight).sum < m ∧ TdInv c root l ts' q2' par' := by
        intro o ho
        cases ho with
        | tdStep hi hf =>
          obtain ⟨q2', par', t', h1, h2, h3⟩ := tdTask_step hc hI hi hf
          refine ⟨_, q2', par', ?_, ?_, h3⟩
          · rw [h1]; rfl
          · rw [← hm]; exact sum_map_set_lt _ hi h2
        | tdJoin hf => exact absurd (hf t₀ ht₀) hf₀
      refine .mk ⟨_, .tdStep hi₀ hf₀⟩ ?_ ?_ ?_
      · intro f hfl
        obtain ⟨_, _, _, h, _⟩ := hstep _ hfl
        cases h
      · intro r hr
        obtain ⟨_, _, _, h, _⟩ := hstep _ hr
        cases h
      · intro s' hs'
        obtain ⟨ts', q2', par', h, hlt, hI'⟩ := hstep _ hs'
        cases h
        exact ih _ hlt ts' rfl q2' par' hI'

/-- After a top-down round the next level is complete and enqueued. -/
theorem TdInv.joined {c : Args α} {root l : Nat} {ts : List (TdTask α)} {q2 : List (List Nat)} {par : List Nat}
    (hI : TdInv c root l ts q2 par) (hf : ∀ t ∈ ts, t.finished) :
    Lev c root (l + 1) par ∧ ∀ v, v ∈ q2.flatten ↔ IsDist c.out root v (l + 1) := by
  have hclaimed : ∀ v, IsDist c.out root v (l + 1) → ∃ pv, par[v]? = some pv ∧ pv ≠ c.inf := by
    intro v hv
    obtain ⟨u, hu, he⟩ := hv.pred
    obtain ⟨i, t, hi, rfl⟩ := hI.cover u hu
    obtain ⟨h1, h2⟩ := hf t (List.mem_of_getElem? hi)
    obtain ⟨_, ⟨sc, h3, h4⟩, _⟩ := hI.task i t hi
    rw [h1, h2] at h3
    simp [TdPc.pending] at h3
    rw [Edge, h3] at he
    exact h4 v he
  refine ⟨⟨hI.len, ?_⟩, ?_⟩
  · intro u pu hu
    obtain ⟨h1, h2⟩ := hI.pars u pu hu
    refine ⟨⟨fun h => (h2 h).1, ?_⟩, fun h => (h2 h).2⟩
    intro hn
    rcases near_succ.1 hn with hn | hn
    · exact h1 hn
    · obtain ⟨pv, h3, h4⟩ := hclaimed u hn
      rw [hu] at h3; cases h3; exact h4
  · intro v
    constructor
    · exact hI.newq v
    · intro hv
      obtain ⟨pv, h3, h4⟩ := hclaimed v hv
      rcases hI.new v pv h3 h4 hv with h | ⟨i, t, hi, hp⟩
      · exact h
      · have := (hf t (List.mem_of_getElem? hi)).2
        rw [this] at hp; cases hp

/-! ## Bottom-up rounds -/

/-- The marks only contain vertices within distance `l`. -/
def MarksWithin (c : Args α) (root l : Nat) (bits : List Bool) : Prop :=
  bits.length = c.out.length ∧ ∀ v : Nat, bits[v]? = some true → Near c.out root l v

/-- What the task of `u` has achieved. -/
def BuAt (c : Args α) (root l u pu : Nat) (cu : Bool) : BuTask → Prop
  | .start => cu = false ∧ (pu ≠ c.inf ↔ Near c.out root l u) ∧ (pu ≠ c.inf → Good c.out root u pu)
  | .found v => cu = false ∧ pu = c.inf ∧ IsDist c.out root v l ∧ Edge c.out v u ∧ IsDist c.out root u (l + 1)
  | .marked v => cu = true ∧ pu = c.inf ∧ IsDist c.out root v l ∧ Edge c.out v u ∧ IsDist c.out root u (l + 1)
  | .done true => cu = true ∧ pu ≠ c.inf ∧ Good c.out root u pu ∧ IsDist c.out root u (l + 1)
  | .done false => cu = false ∧ (pu ≠ c.inf ↔ Near c.out root l u) ∧ (pu ≠ c.inf → Good c.out root u pu) ∧ ¬ IsDist c.out root u (l + 1)

structure BuInv (c : Args α) (root l : Nat) (front : List Bool) (ts : List BuTask) (par : List Nat) (curr : List Bool) : Prop where
  lenT : ts.length = c.out.length
  lenP : par.length = c.out.length
  lenC : curr.length = c.out.length
  frontIn : MarksWithin c root l front
  frontAll : ∀ v, IsDist c.out root v l → front[v]? = some true
  each : ∀ u t pu cu, ts[u]? = some t → par[u]? = some pu → curr[u]? = some cu → BuAt c root l u pu cu t

def BuTask.weight : BuTask → Nat
  | .start => 3
  | .found _ => 2
  | .marked _ => 1
  | .done _ => 0

theorem scan_spec {front : List Bool} (r : List (Nat × α)) (hr : ∀ x ∈ r, x.1 < front.length) :
    (∃ v, scan front r = .ok (some v) ∧ front[v]? = some true ∧ ∃ x ∈ r, x.1 = v) ∨
      (scan front r = .ok none ∧ ∀ x ∈ r, front[x.1]? ≠ some true) := by
  induction r with
  | nil => right; exact ⟨rfl, by simp⟩
  | cons x xs ih =>
    unfold scan
    have hx := hr x (by simp)
    rw [vget_of_lt hx, res_bind_ok]
    cases hb : front[x.1] with
    | true =>
      left
      refine ⟨x.1, by simp, ?_, x, by simp, rfl⟩
      rw [List.getElem?_eq_getElem hx, hb]
    | false =>
      rcases ih (fun y hy => hr y (List.mem_cons_of_mem _ hy)) with ⟨v, h1, h2, y, h3, h4⟩ | ⟨h1, h2⟩
      · left; exact ⟨v, by simp [h1], h2, y, List.mem_cons_of_mem _ h3, h4⟩
      · right
        refine ⟨by simp [h1], ?_⟩
        intro y hy
        rcases List.mem_cons.1 hy with rfl | hy
        · rw [List.getElem?_eq_getElem hx, hb]; simp
        · exact h2 y hy

theorem buTask_step {c : Args α} {root l : Nat} (hc : Usable c root) {front curr : List Bool} {ts : List BuTask} {par : List Nat}
    (hI : BuInv c root l front ts par curr) {u : Nat} {t : BuTask} (hu : ts[u]? = some t) (hf : t.isDone = false) :
    ∃ par' curr' t', buTask c par front curr u t = .ok (par', curr', t') ∧ t'.weight < t.weight ∧
      BuInv c root l front (ts.set u t') par' curr' := by
  have hun : u < c.out.length := by rw [← hI.lenT]; exact (List.getElem?_eq_some_iff.1 hu).1
  obtain ⟨pu, hpu⟩ : ∃ pu, par[u]? = some pu := ⟨_, List.getElem?_eq_getElem (by rw [hI.lenP]; exact hun)⟩
  obtain ⟨cu, hcu⟩ : ∃ cu, curr[u]? = some cu := ⟨_, List.getElem?_eq_getElem (by rw [hI.lenC]; exact hun)⟩
  have hat := hI.each u t pu cu hu hpu hcu
  -- changing the entries of `u` only
  have hupd : ∀ t' pu' cu', BuAt c root l u pu' cu' t' → BuInv c root l front (ts.set u t') (par.set u pu') (curr.set u cu') := by
    intro t' pu' cu' h
    refine ⟨by simp [hI.lenT], by simp [hI.lenP], by simp [hI.lenC], hI.frontIn, hI.frontAll, ?_⟩
    intro w tw pw cw h1 h2 h3
    by_cases cw' : u = w
    · subst cw'
      rw [getElem?_set_same hu] at h1; rw [getElem?_set_same hpu] at h2; rw [getElem?_set_same hcu] at h3
      cases h1; cases h2; cases h3; exact h
    · rw [getElem?_set_other cw'] at h1 h2 h3
      exact hI.each w tw pw cw h1 h2 h3
  have hsp : par.set u pu = par := by
    apply List.ext_getElem?
    intro j
    by_cases c : u = j
    · subst c; rw [getElem?_set_same hpu, hpu]
    · rw [getElem?_set_other c]
  have hsc : curr.set u cu = curr := by
    apply List.ext_getElem?
    intro j
    by_cases c : u = j
    · subst c; rw [getElem?_set_same hcu, hcu]
    · rw [getElem?_set_other c]
  have hui : ∀ v, IsDist c.out root v l → v ≠ c.inf := by
    intro v hv
    have := hv.1.lt hc.inRange hc.rootLt
    have := hc.small
    omega
  cases t with
  | start =>
    obtain ⟨h1, h2, h3⟩ := hat
    simp only [buTask]
    rw [vget_eq_ok.2 hpu, res_bind_ok]
    by_cases cp : pu = c.inf
    · have hnn : ¬ Near c.out root l u := fun h => h2.2 h cp
      have hin : u < c.inn.length := by rw [hc.transpose.1]; exact hun
      have hrow : ∀ x ∈ c.inn.getD u [], Edge c.out x.1 u := fun x hx => (hc.transpose.2 u x.1).1 (mem_row_edge hx)
      rw [if_pos cp, vget_row hin, res_bind_ok]
      rcases scan_spec (front := front) (c.inn.getD u [])
        (fun x hx => by rw [hI.frontIn.1]; exact (hrow x hx).src_lt) with ⟨v, h4, h5, x, h6, h7⟩ | ⟨h4, h5⟩
      · rw [h4, res_bind_ok]
        have he := hrow x h6
        rw [h7] at he
        obtain ⟨h8, h9⟩ := dist_of_edge (hI.frontIn.2 v h5) he hnn
        refine ⟨par, curr, .found v, rfl, by simp [BuTask.weight], ?_⟩
        have := hupd (.found v) pu cu ⟨h1, cp, h8, he, h9⟩
        rwa [hsp, hsc] at this
      · rw [h4, res_bind_ok]
        refine ⟨par, curr, .done false, rfl, by simp [BuTask.weight], ?_⟩
        have := hupd (.done false) pu cu ⟨h1, h2, h3, ?_⟩
        · rwa [hsp, hsc] at this
        · intro hd
          obtain ⟨v, hv, he⟩ := hd.pred
          have hmem := (hc.transpose.2 u v).2 he
          rw [Edge, nbrs, List.mem_map] at hmem
          obtain ⟨x, hx, rfl⟩ := hmem
          exact h5 x hx (hI.frontAll _ hv)
    · rw [if_neg cp]
      refine ⟨par, curr, .done false, rfl, by simp [BuTask.weight], ?_⟩
      have := hupd (.done false) pu cu ⟨h1, h2, h3, ?_⟩
      · rwa [hsp, hsc] at this
      · intro hd
        exact hd.not_near (h2.1 cp)
  | found v =>
    obtain ⟨h1, h2, h3, h4, h5⟩ := hat
    simp only [buTask]
    rw [vset_of_lt (by rw [hI.lenC]; exact hun), res_bind_ok]
    refine ⟨par, _, .marked v, rfl, by simp [BuTask.weight], ?_⟩
    have := hupd (.marked v) pu true ⟨rfl, h2, h3, h4, h5⟩
    rwa [hsp] at this
  | marked v =>
    obtain ⟨h1, h2, h3, h4, h5⟩ := hat
    simp only [buTask]
    rw [vset_of_lt (by rw [hI.lenP]; exact hun), res_bind_ok]
    refine ⟨_, curr, .done true, rfl, by simp [BuTask.weight], ?_⟩
    have hur : u ≠ root := by
      rintro rfl
      exact h5.not_near ⟨0, Nat.zero_le _, IsDist.zero _ _⟩
    have := hupd (.done true) v cu ⟨h1, hui v h3, by unfold Good; rw [if_neg hur]; exact ⟨h4, l, h3, h5⟩, h5⟩
    rwa [hsc] at this
  | done b => simp [BuTask.isDone] at hf

theorem bu_phase {c : Args α} {root l : Nat} (hc : Usable c root) {Q : List Nat → Prop} {front : List Bool} {edges old : Nat}
    (hjoin : ∀ ts par curr, BuInv c root l front ts par curr → (∀ t ∈ ts, t.isDone = true) →
      Sure (Step c) Q (.bu ts old par front curr edges)) :
    ∀ ts par curr, BuInv c root l front ts par curr → Sure (Step c) Q (.bu ts old par front curr edges) := by
  intro ts
  generalize hm : (ts.map BuTask.weight).sum = m
  induction m using Nat.strongRecOn generalizing ts with
  | ind m ih =>
    intro par curr hI
    by_cases hall : ∀ t ∈ ts, t.isDone = true
    · exact hjoin ts par curr hI hall
    · push Not at hall
      obtain ⟨t₀, ht₀, hf₀⟩ := hall
      obtain ⟨i₀, hi₀⟩ := List.getElem?_of_mem ht₀
      have hstep : ∀ o, Step c (.bu ts old par front curr edges) o →
          ∃ ts' par' curr', o = .ok (.inl (.bu ts' old par' front curr' edges)) ∧ (ts'.map BuTask.weight).sum < m ∧
            BuInv c root l front ts' par' curr' := by
        intro o ho
        cases ho with
        | buStep hi hf =>
          obtain ⟨par', curr', t', h1, h2, h3⟩ := buTask_step hc hI hi hf
          refine ⟨_, par', curr', ?_, ?_, h3⟩
          · rw [h1]; rfl
          · rw [← hm]; exact sum_map_set_lt _ hi h2
        | buJoin hf => exact absurd (hf t₀ ht₀) hf₀
      refine .mk ⟨_, .buStep hi₀ (by simpa using hf₀)⟩ ?_ ?_ ?_
      · intro f hfl
        obtain ⟨_, _, _, h, _⟩ := hstep _ hfl
        cases h
      · intro r hr
        obtain ⟨_, _, _, h, _⟩ := hstep _ hr
        cases h
      · intro s' hs'
        obtain ⟨ts', par', curr', h, hlt, hI'⟩ := hstep _ hs'
        cases h
        exact ih _ hlt ts' rfl par' curr' hI'

theorem BuInv.joined {c : Args α} {root l : Nat} (hc : Usable c root) {front curr : List Bool} {ts : List BuTask} {par : List Nat}
    (hI : BuInv c root l front ts par curr) (hf : ∀ t ∈ ts, t.isDone = true) :
    Lev c root (l + 1) par ∧ (∀ v : Nat, curr[v]? = some true ↔ IsDist c.out root v (l + 1)) ∧
      (ts.count (.done true) = 0 ↔ ¬ ∃ v, IsDist c.out root v (l + 1)) := by
  have hall : ∀ u, u < c.out.length → ∃ b pu cu, ts[u]? = some (.done b) ∧ par[u]? = some pu ∧ curr[u]? = some cu ∧
      BuAt c root l u pu cu (.done b) := by
    intro u hu
    obtain ⟨t, ht⟩ : ∃ t, ts[u]? = some t := ⟨_, List.getElem?_eq_getElem (by rw [hI.lenT]; exact hu)⟩
    obtain ⟨pu, hpu⟩ : ∃ pu, par[u]? = some pu := ⟨_, List.getElem?_eq_getElem (by rw [hI.lenP]; exact hu)⟩
    obtain ⟨cu, hcu⟩ : ∃ cu, curr[u]? = some cu := ⟨_, List.getElem?_eq_getElem (by rw [hI.lenC]; exact hu)⟩
    have hd := hf t (List.mem_of_getElem? ht)
    cases t with
    | done b => exact ⟨b, pu, cu, ht, hpu, hcu, hI.each u _ pu cu ht hpu hcu⟩
    | _ => simp [BuTask.isDone] at hd
  refine ⟨⟨hI.lenP, ?_⟩, ?_, ?_⟩
  · intro u pu hu
    obtain ⟨b, pu', cu, h1, h2, h3, h4⟩ := hall u (by rw [← hI.lenP]; exact (List.getElem?_eq_some_iff.1 hu).1)
    rw [hu] at h2; cases h2
    rw [near_succ]
    cases b with
    | true => exact ⟨⟨fun _ => Or.inr h4.2.2.2, fun _ => h4.2.1⟩, fun _ => h4.2.2.1⟩
    | false =>
      obtain ⟨_, h5, h6, h7⟩ := h4
      refine ⟨⟨fun h => Or.inl (h5.1 h), ?_⟩, h6⟩
      rintro (h | h)
      · exact h5.2 h
      · exact absurd h h7
  · intro v
    constructor
    · intro hv
      obtain ⟨b, pu, cu, h1, h2, h3, h4⟩ := hall v (by rw [← hI.lenC]; exact (List.getElem?_eq_some_iff.1 hv).1)
      rw [hv] at h3; cases h3
      cases b with
      | true => exact h4.2.2.2
      | false => exact absurd h4.1 (by simp)
    · intro hv
      obtain ⟨b, pu, cu, h1, h2, h3, h4⟩ := hall v (hv.1.lt hc.inRange hc.rootLt)
      cases b with
      | true => rw [h3, h4.1]
      | false => exact absurd hv h4.2.2.2
  · rw [List.count_eq_zero]
    constructor
    · rintro hn ⟨v, hv⟩
      obtain ⟨b, pu, cu, h1, h2, h3, h4⟩ := hall v (hv.1.lt hc.inRange hc.rootLt)
      cases b with
      | true => exact hn (List.mem_of_getElem? h1)
      | false => exact absurd hv h4.2.2.2
    · intro hn hm
      obtain ⟨u, hu⟩ := List.getElem?_of_mem hm
      have hul : u < c.out.length := by rw [← hI.lenT]; exact (List.getElem?_eq_some_iff.1 hu).1
      obtain ⟨b, pu, cu, h1, h2, h3, h4⟩ := hall u hul
      rw [hu] at h1; cases h1
      exact hn ⟨u, h4.2.2.2⟩

theorem Fill.mem {bins : Nat} (hb : 0 < bins) {curr : List Bool} {q2 : List (List Nat)} (h : Fill bins curr q2) (v : Nat) :
    v ∈ q2.flatten ↔ curr[v]? = some true := by
  rw [List.mem_flatten]
  constructor
  · rintro ⟨q, hq, hv⟩
    obtain ⟨b, hbq⟩ := List.getElem?_of_mem hq
    have := (h.2 b q hbq).mem_iff.1 hv
    simp at this
    exact this.2.1
  · intro hv
    have hb' : v % bins < q2.length := by rw [h.1]; exact Nat.mod_lt _ hb
    refine ⟨q2[v % bins], List.getElem_mem hb', ?_⟩
    rw [(h.2 _ _ (List.getElem?_eq_getElem hb')).mem_iff]
    rw [List.mem_filter]
    exact ⟨List.mem_range.2 (List.getElem?_eq_some_iff.1 hv).1, by simp only [hv]; simp⟩

theorem exists_fill (bins : Nat) (curr : List Bool) : ∃ q2, Fill bins curr q2 := by
  refine ⟨(List.range bins).map fun b => (List.range curr.length).filter (fun i => curr[i]? = some true ∧ i % bins = b), by simp, ?_⟩
  intro b q hq
  rw [List.getElem?_map] at hq
  rcases Nat.lt_or_ge b bins with hb | hb
  · rw [List.getElem?_range hb] at hq
    simp at hq
    rw [← hq]; simp
  · rw [List.getElem?_eq_none (by simpa using hb)] at hq
    simp at hq

/-! ## The whole algorithm -/

structure HeadInv (c : Args α) (root l : Nat) (q1 : List (List Nat)) (par : List Nat) (front curr : List Bool) : Prop where
  lev : Lev c root l par
  queue : ∀ v, v ∈ q1.flatten ↔ IsDist c.out root v l
  alive : ∃ v, IsDist c.out root v l
  marks : MarksWithin c root l curr

structure BuHeadInv (c : Args α) (root l awake : Nat) (par : List Nat) (curr : List Bool) : Prop where
  lev : Lev c root l par
  awake : 0 < awake
  alive : ∃ v, IsDist c.out root v l
  marks : MarksWithin c root l curr
  currAll : ∀ v, IsDist c.out root v l → curr[v]? = some true

/-- The postcondition. -/
def Post (c : Args α) (root : Nat) (par : List Nat) : Prop :=
  par.length = c.out.length ∧ BfsTree c.out root (parentOf c.inf par)

theorem sure_of_eq {c : Args α} {Q : List Nat → Prop} {s : State α} {o : Res (State α ⊕ List Nat)} (hs : ∀ o', Step c s o' → o' = o)
    (hex : Step c s o) (h : (∃ r, o = .ok (.inr r) ∧ Q r) ∨ ∃ s', o = .ok (.inl s') ∧ Sure (Step c) Q s') : Sure (Step c) Q s := by
  refine .mk ⟨o, hex⟩ ?_ ?_ ?_
  · intro f hf
    rw [← hs _ hf] at h
    rcases h with ⟨r, h, _⟩ | ⟨s', h, _⟩ <;> cases h
  · intro r hr
    rw [← hs _ hr] at h
    rcases h with ⟨r, h, hq⟩ | ⟨s', h, _⟩ <;> cases h
    exact hq
  · intro s' hs'
    rw [← hs _ hs'] at h
    rcases h with ⟨r, h, _⟩ | ⟨s', h, hq⟩ <;> cases h
    exact hq

theorem tail_sure {c : Args α} {root l : Nat} (hc : Usable c root) {q2 : List (List Nat)} {par : List Nat} {front curr : List Bool} {edges scout : Nat}
    (hlev : Lev c root l par) (hq : ∀ v, v ∈ q2.flatten ↔ IsDist c.out root v l) (hcurr : MarksWithin c root l curr)
    (hnext : HeadInv c root l q2 par front curr → Sure (Step c) (Post c root) (.head q2 par front curr edges scout)) :
    (∃ r, tail (α := α) q2 par front curr edges scout = .ok (.inr r) ∧ Post c root r) ∨
      ∃ s', tail q2 par front curr edges scout = .ok (.inl s') ∧ Sure (Step c) (Post c root) s' := by
  unfold tail
  by_cases he : q2.all List.isEmpty = true
  · left
    rw [if_pos he]
    refine ⟨par, rfl, hlev.final hc ?_⟩
    rintro ⟨v, hv⟩
    obtain ⟨w, hw⟩ := hv.down (j := l) (by omega)
    have := (hq w).2 hw
    rw [List.mem_flatten] at this
    obtain ⟨q, h1, h2⟩ := this
    have := List.all_eq_true.1 he q h1
    cases q with
    | nil => cases h2
    | cons _ _ => simp at this
  · right
    rw [if_neg he]
    refine ⟨_, rfl, hnext ⟨hlev, hq, ?_, hcurr⟩⟩
    rw [Bool.not_eq_true, List.all_eq_false] at he
    obtain ⟨q, h1, h2⟩ := he
    cases q with
    | nil => simp at h2
    | cons v _ => exact ⟨v, (hq v).1 (List.mem_flatten.2 ⟨_, h1, by simp⟩)⟩

theorem fill_curr {c : Args α} {root l : Nat} (hc : Usable c root) (qs : List Nat) (hqs : ∀ v ∈ qs, IsDist c.out root v l) (curr : List Bool)
    (hm : MarksWithin c root l curr) :
    ∃ curr', qs.foldlM (fun cu u => vset cu u true) curr = .ok curr' ∧ MarksWithin c root l curr' ∧ ∀ v ∈ qs, curr'[v]? = some true := by
  obtain ⟨curr', h1, h2, h3⟩ := foldlM_list_inv (l := qs) (f := fun cu u => vset cu u true) (s := curr)
    (fun pre cu => MarksWithin c root l cu ∧ ∀ v ∈ pre, cu[v]? = some true) ⟨hm, by simp⟩
    (by
      rintro pre u post hpx cu ⟨h1, h2⟩
      have hu := hqs u (by rw [hpx]; simp)
      have hun : u < cu.length := by rw [h1.1]; exact hu.1.lt hc.inRange hc.rootLt
      refine ⟨_, vset_of_lt hun, ⟨by simp [h1.1], ?_⟩, ?_⟩
      · intro v hv
        rcases getElem?_set_cases hv with ⟨rfl, _⟩ | ⟨_, hv⟩
        · exact hu.near
        · exact h1.2 v hv
      · intro v hv
        by_cases cv : u = v
        · subst cv; exact getElem?_set_same (List.getElem?_eq_getElem hun)
        · rw [getElem?_set_other cv]
          simp at hv
          rcases hv with hv | hv
          · exact h2 v hv
          · exact absurd hv.symm cv)
  exact ⟨curr', h1, h2, h3⟩

theorem sum_lengths_pos {q : List (List Nat)} {v : Nat} (h : v ∈ q.flatten) : 0 < (q.map List.length).sum := by
  rw [← List.length_flatten]
  exact List.length_pos_of_mem h

theorem all_sure {c : Args α} {root : Nat} (hc : Usable c root) (k : Nat) : ∀ l, c.out.length - l = k →
    (∀ awake par front curr edges, BuHeadInv c root l awake par curr → Sure (Step c) (Post c root) (.buHead awake par front curr edges)) ∧
    (∀ q1 par front curr edges scout, HeadInv c root l q1 par front curr → Sure (Step c) (Post c root) (.head q1 par front curr edges scout)) := by
  induction k using Nat.strongRecOn with
  | ind k ih =>
    intro l hk
    have hnext : ∀ {v}, IsDist c.out root v l → _ := fun {v} hv =>
      ih (c.out.length - (l + 1)) (by have := hv.lt_length hc.inRange hc.rootLt; omega) (l + 1) rfl
    have hbu : ∀ awake par front curr edges, BuHeadInv c root l awake par curr →
        Sure (Step c) (Post c root) (.buHead awake par front curr edges) := by
      intro awake par front curr edges hI
      obtain ⟨v₀, hv₀⟩ := hI.alive
      refine sure_of_eq (o := .ok (.inl (.bu (List.replicate c.out.length .start) awake par curr (List.replicate c.out.length false) edges)))
        (fun o' ho' => by cases ho'; rfl) .buHead (Or.inr ⟨_, rfl, ?_⟩)
      refine bu_phase (l := l) hc ?_ _ _ _ ?_
      · intro ts par' curr' hB hf
        obtain ⟨h1, h2, h3⟩ := hB.joined hc hf
        have hmw : MarksWithin c root (l + 1) curr' := ⟨hB.lenC, fun v hv => ((h2 v).1 hv).near⟩
        have key : ∀ q2, Fill c.bins curr' q2 →
            (∃ r, buAfter c (ts.count (.done true)) awake q2 par' curr curr' edges = .ok (.inr r) ∧ Post c root r) ∨
            ∃ s', buAfter c (ts.count (.done true)) awake q2 par' curr curr' edges = .ok (.inl s') ∧ Sure (Step c) (Post c root) s' := by
          intro q2 hq2
          have hpos : 0 < ts.count (.done true) → Sure (Step c) (Post c root) (.buHead (ts.count (.done true)) par' curr curr' edges) := by
            intro hp
            refine (hnext hv₀).1 _ _ _ _ _ ⟨h1, hp, ?_, hmw, fun v hv => (h2 v).2 hv⟩
            by_contra hno
            have := h3.2 hno
            omega
          unfold buAfter
          by_cases c1 : ts.count (.done true) ≥ awake
          · rw [if_pos c1]
            exact Or.inr ⟨_, rfl, hpos (by have := hI.awake; omega)⟩
          · rw [if_neg c1, if_neg (by have := hc.betaPos; omega)]
            by_cases c2 : ts.count (.done true) > c.out.length / c.beta
            · rw [if_pos c2]
              exact Or.inr ⟨_, rfl, hpos (Nat.lt_of_le_of_lt (Nat.zero_le _) c2)⟩
            · rw [if_neg c2]
              by_cases c3 : ts.count (.done true) = 0
              · rw [if_pos c3]
                refine Or.inl ⟨_, rfl, h1.final hc ?_⟩
                rintro ⟨v, hv⟩
                obtain ⟨w, hw⟩ := hv.down (j := l + 1) (by omega)
                exact h3.1 c3 ⟨w, hw⟩
              · rw [if_neg c3]
                refine tail_sure hc h1 (fun v => ?_) hmw (fun hH => (hnext hv₀).2 _ _ _ _ _ _ hH)
                rw [hq2.mem hc.binsPos, h2]
        obtain ⟨q2, hq2⟩ := exists_fill c.bins curr'
        refine .mk ⟨_, .buJoin hf hq2⟩ ?_ ?_ ?_
        · intro f hfl
          generalize ho : (Except.error f : Res (State α ⊕ List Nat)) = o at hfl
          cases hfl with
          | buStep hi hd => have := hf _ (List.mem_of_getElem? hi); rw [hd] at this; cases this
          | buJoin _ hq =>
            rcases key _ hq with ⟨r, h, _⟩ | ⟨s', h, _⟩ <;> rw [h] at ho <;> cases ho
        · intro r hr
          generalize ho : (Except.ok (Sum.inr r) : Res (State α ⊕ List Nat)) = o at hr
          cases hr with
          | buStep hi hd => have := hf _ (List.mem_of_getElem? hi); rw [hd] at this; cases this
          | buJoin _ hq =>
            rcases key _ hq with ⟨r, h, hP⟩ | ⟨s', h, _⟩ <;> rw [h] at ho <;> cases ho
            exact hP
        · intro s' hs'
          generalize ho : (Except.ok (Sum.inl s') : Res (State α ⊕ List Nat)) = o at hs'
          cases hs' with
          | buStep hi hd => have := hf _ (List.mem_of_getElem? hi); rw [hd] at this; cases this
          | buJoin _ hq =>
            rcases key _ hq with ⟨r, h, hP⟩ | ⟨s', h, hS⟩ <;> rw [h] at ho <;> cases ho
            exact hS
      · refine ⟨by simp, hI.lev.1, by simp, hI.marks, hI.currAll, ?_⟩
        intro u t pu cu h1 h2 h3
        have h1' := List.mem_of_getElem? h1
        have h3' := List.mem_of_getElem? h3
        rw [(List.mem_replicate.1 h1').2, (List.mem_replicate.1 h3').2]
        exact ⟨rfl, hI.lev.2 u pu h2⟩
    refine ⟨hbu, ?_⟩
    intro q1 par front curr edges scout hH
    obtain ⟨v₀, hv₀⟩ := hH.alive
    refine sure_of_eq (fun o' ho' => by cases ho'; rfl) .head ?_
    unfold headStep
    rw [if_neg (by have := hc.alphaPos; omega)]
    by_cases c1 : scout > edges / c.alpha
    · rw [if_pos c1]
      obtain ⟨curr', h1, h2, h3⟩ := fill_curr hc q1.flatten (fun v hv => (hH.queue v).1 hv) curr hH.marks
      rw [h1, res_bind_ok]
      refine Or.inr ⟨_, rfl, hbu _ _ _ _ _ ⟨hH.lev, sum_lengths_pos ((hH.queue v₀).2 hv₀), hH.alive, h2, ?_⟩⟩
      intro v hv
      exact h3 v ((hH.queue v).2 hv)
    · rw [if_neg c1]
      have hts : q1.flatten.mapM (mkTask c) = .ok (q1.flatten.map fun u => { u := u, rest := c.out.getD u [], pc := .idle, count := 0 }) := by
        refine mapM_ok_of_forall ?_
        intro u hu
        have := ((hH.queue u).1 hu).1.lt hc.inRange hc.rootLt
        unfold mkTask
        rw [vget_row this, res_bind_ok]; rfl
      rw [hts, res_bind_ok]
      refine Or.inr ⟨_, rfl, ?_⟩
      refine td_phase (l := l) hc ?_ _ _ _ ?_
      · intro ts q2 par' hI hf
        obtain ⟨h1, h2⟩ := hI.joined hf
        refine sure_of_eq (o := tail q2 par' front curr _ (ts.map TdTask.count).sum) ?_ (.tdJoin hf) ?_
        · intro o' ho'
          cases ho' with
          | tdStep hi hd => exact absurd (hf _ (List.mem_of_getElem? hi)) hd
          | tdJoin _ => rfl
        · refine tail_sure hc h1 h2 ⟨hH.marks.1, ?_⟩ (fun hH => (hnext hv₀).2 _ _ _ _ _ _ hH)
          intro v hv
          exact near_succ.2 (Or.inl (hH.marks.2 v hv))
      · refine ⟨hH.lev.1, ?_, ?_, ?_, by simp, ?_, ?_⟩
        · intro u pu hu
          obtain ⟨h1, h2⟩ := hH.lev.2 u pu hu
          exact ⟨h1.2, fun h => ⟨near_succ.2 (Or.inl (h1.1 h)), h2 h⟩⟩
        · intro i t hi
          rw [List.getElem?_map] at hi
          cases hq : q1.flatten[i]? with
          | none => rw [hq] at hi; cases hi
          | some u =>
            rw [hq] at hi
            simp at hi
            subst hi
            refine ⟨(hH.queue u).1 (List.mem_of_getElem? hq), ⟨[], by simp [TdPc.pending, nbrs], by simp⟩, by simp⟩
        · intro u hu
          obtain ⟨i, hi⟩ := List.getElem?_of_mem ((hH.queue u).2 hu)
          exact ⟨i, _, by rw [List.getElem?_map, hi]; rfl, rfl⟩
        · intro v pv h1 h2 h3
          exact absurd ((hH.lev.2 v pv h1).1.1 h2) h3.not_near
        · intro v hv
          simp at hv

/-- C23. For every usable input, whatever is in the uninitialised bit vector and whatever order the parallel steps take, the
direction-optimizing `bfs` ends without fault and returns a breadth-first search tree. -/
theorem dobfs_correct (c : Args α) (root : Nat) (hc : Usable c root) (garbage : List Bool) :
    ∃ s, init c root garbage = .ok s ∧
      Sure (Step c) (fun par => par.length = c.out.length ∧ BfsTree c.out root (parentOf c.inf par)) s := by
  have hr := hc.rootLt
  have hb : root % c.bins < (List.replicate c.bins ([] : List Nat)).length := by simpa using Nat.mod_lt _ hc.binsPos
  refine ⟨.head ((List.replicate c.bins []).set (root % c.bins) [root]) ((List.replicate c.out.length c.inf).set root root) garbage
      (List.replicate c.out.length false) c.M (c.out.getD root []).length, ?_, ?_⟩
  · unfold init
    rw [vget_row hr, res_bind_ok, vset_of_lt (by simpa using hr), res_bind_ok, vset_of_lt hb, res_bind_ok]; rfl
  · refine (all_sure hc _ 0 rfl).2 _ _ _ _ _ _ ⟨⟨by simp, ?_⟩, ?_, ⟨root, IsDist.zero _ _⟩, by simp, ?_⟩
    · intro u pu hu
      rcases getElem?_set_cases hu with ⟨rfl, rfl⟩ | ⟨hne, hu⟩
      · refine ⟨⟨fun _ => ⟨0, Nat.le_refl _, IsDist.zero _ _⟩, fun _ => ?_⟩, fun _ => by unfold Good; rw [if_pos rfl]⟩
        have := hc.small; omega
      · have hu' := (List.mem_replicate.1 (List.mem_of_getElem? hu)).2
        refine ⟨⟨fun h => absurd hu' h, ?_⟩, fun h => absurd hu' h⟩
        rintro ⟨d, hd, hdist⟩
        obtain rfl : d = 0 := by omega
        exact absurd hdist.of_zero.symm hne
    · intro v
      have h0 : (List.replicate c.bins ([] : List Nat))[root % c.bins]? = some [] := by
        rw [List.getElem?_eq_getElem hb]; simp
      have := mem_flatten_set h0 root v
      rw [List.nil_append] at this
      rw [this]
      simp only [List.mem_flatten, List.mem_replicate]
      constructor
      · rintro (⟨l, ⟨_, rfl⟩, hv⟩ | rfl)
        · cases hv
        · exact IsDist.zero _ _
      · intro h; exact Or.inr h.of_zero
    · intro v hv
      have := (List.mem_replicate.1 (List.mem_of_getElem? hv)).2
      cases this

/-- With `alpha = 0` the first comparison divides by zero. -/
theorem dobfs_alpha_zero (c : Args α) (h : c.alpha = 0) (q1 : List (List Nat)) (par : List Nat) (front curr : List Bool) (e s : Nat)
    (o : Res (State α ⊕ List Nat)) (ho : Step c (.head q1 par front curr e s) o) : o = .error .divByZero := by
  cases ho
  simp [headStep, h]

/-- A usable input: the example graph, with four bins. -/
example : Usable { out := exG, inn := exT, bins := 4, M := 7, alpha := 15, beta := 18, inf := 7 } 0 where
  inRange := by decide
  transpose := (isTranspose_iff _ _ (by decide) (by decide)).2 (by decide)
  rootLt := by decide
  small := by decide
  binsPos := by decide
  alphaPos := by decide
  betaPos := by decide

end NW.Dobfs
