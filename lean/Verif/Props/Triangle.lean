import Verif.Model.Triangle
import Verif.Props.Util
import Verif.Spec.Triangles
import Verif.Lemmas.ListRes
import Mathlib.Algebra.BigOperators.Group.Finset.Sigma
import Mathlib.Algebra.BigOperators.Group.Finset.Basic
import Mathlib.Data.Finset.Card
import Mathlib.Tactic.IntervalCases

/-! # Properties C31, C32: triangle counting -/

namespace NW.Triangle
open Spec Util

variable {α : Type}

theorem foldlM_add {β : Type} (l : List β) (f : β → Res Nat) (h : β → Nat) (hf : ∀ x ∈ l, f x = .ok (h x)) (acc : Nat) :
    l.foldlM (init := acc) (fun acc x => do let k ← f x; return acc + k) = .ok (acc + (l.map h).sum) := by
  induction l generalizing acc with
  | nil => rfl
  | cons x xs ih =>
    rw [List.foldlM_cons, hf x (by simp), res_bind_ok]
    show (xs.foldlM _ (acc + h x) : Res Nat) = _
    rw [ih (fun y hy => hf y (by simp [hy])), List.map_cons, List.sum_cons, Nat.add_assoc]

/-- Common neighbours listed in the rows of `u` and `v`. -/
def common (g : Rows α) (u v : Nat) : Nat := ((nbrs g u).filter fun w => decide (w ∈ nbrs g v)).length

theorem nbrs_eq {g : Rows α} {u : Nat} (hu : u < g.length) : nbrs g u = ids g[u] := by
  unfold nbrs ids; rw [List.getD_eq_getElem?_getD, List.getElem?_eq_getElem hu]; rfl

theorem count_rows {g : Rows α} (hg : InRange g) (hs : ∀ u, (nbrs g u).Pairwise (· < ·)) :
    triangleCount g = .ok (∑ u ∈ Finset.range g.length, ∑ v ∈ (nbrs g u).toFinset, common g u v) := by
  have hrow : ∀ u (hu : u < g.length) acc, countRow g acc g[u] = .ok (acc + ∑ v ∈ (nbrs g u).toFinset, common g u v) := by
    intro u hu acc
    unfold countRow
    have := foldlM_add g[u] (fun e => do let r ← vget g e.1; intersectionSize (ids g[u]) (ids r)) (fun e => common g u e.1) (by
      intro e he
      have hed : Edge g u e.1 := by
        show e.1 ∈ nbrs g u
        rw [nbrs_eq hu]; exact List.mem_map_of_mem he
      have hv := hg u e.1 hed
      rw [vget_of_lt hv, res_bind_ok]
      unfold common
      rw [nbrs_eq hu, nbrs_eq hv]
      exact intersection_size_set _ _ (by rw [← nbrs_eq hu]; exact hs u) (by rw [← nbrs_eq hv]; exact hs e.1)) acc
    simp only [bind_assoc] at this
    rw [this]
    congr 2
    rw [List.sum_toFinset _ ((hs u).imp Nat.ne_of_lt), nbrs_eq hu, ids, List.map_map]; rfl
  unfold triangleCount
  obtain ⟨r, h1, h2⟩ := foldlM_list_inv (l := g) (f := countRow g) (s := 0)
    (fun pre s => s = ∑ u ∈ Finset.range pre.length, ∑ v ∈ (nbrs g u).toFinset, common g u v) rfl (by
      intro pre row post hl s hs'
      have hlen : pre.length < g.length := by rw [hl]; simp
      have hrw : row = g[pre.length] := by
        have : g[pre.length]? = some row := by rw [hl]; simp
        rw [List.getElem?_eq_getElem hlen] at this
        exact (Option.some.inj this).symm
      refine ⟨_, by rw [hrw]; exact hrow _ hlen s, ?_⟩
      rw [List.length_append, List.length_singleton, Finset.sum_range_succ, hs'])
  rw [h1, h2]

/-- Three vertices in increasing order. -/
theorem triple_surj {n : Nat} {Adj : Nat → Nat → Prop} [DecidableRel Adj] {s : Finset Nat} (hs : s ∈ triangles n Adj) :
    ∃ a b c, a < b ∧ b < c ∧ c < n ∧ Adj a b ∧ Adj b c ∧ Adj a c ∧ Adj b a ∧ Adj c b ∧ Adj c a ∧ s = {a, b, c} := by
  unfold triangles at hs
  rw [Finset.mem_filter, Finset.mem_powersetCard] at hs
  obtain ⟨⟨hsub, hcard⟩, hadj⟩ := hs
  obtain ⟨x, y, z, hxy, hxz, hyz, rfl⟩ := Finset.card_eq_three.1 hcard
  have hx : x < n := Finset.mem_range.1 (hsub (by simp))
  have hy : y < n := Finset.mem_range.1 (hsub (by simp))
  have hz : z < n := Finset.mem_range.1 (hsub (by simp))
  have axy := hadj x (by simp) y (by simp) hxy
  have axz := hadj x (by simp) z (by simp) hxz
  have ayz := hadj y (by simp) z (by simp) hyz
  have ayx := hadj y (by simp) x (by simp) hxy.symm
  have azx := hadj z (by simp) x (by simp) hxz.symm
  have azy := hadj z (by simp) y (by simp) hyz.symm
  rcases Nat.lt_or_gt_of_ne hxy with c1 | c1 <;> rcases Nat.lt_or_gt_of_ne hxz with c2 | c2 <;> rcases Nat.lt_or_gt_of_ne hyz with c3 | c3
  · exact ⟨x, y, z, c1, c3, hz, axy, ayz, axz, ayx, azy, azx, rfl⟩
  · exact ⟨x, z, y, c2, c3, hy, axz, azy, axy, azx, ayz, ayx, by ext w; simp; tauto⟩
  · omega
  · exact ⟨z, x, y, c2, c1, hy, azx, axy, azy, axz, ayx, ayz, by ext w; simp; tauto⟩
  · exact ⟨y, x, z, c1, c2, hz, ayx, axz, ayz, axy, azx, azy, by ext w; simp; tauto⟩
  · omega
  · exact ⟨y, z, x, c3, c2, hx, ayz, azx, ayx, azy, axz, axy, by ext w; simp; tauto⟩
  · exact ⟨z, y, x, c3, c1, hx, azy, ayx, azx, ayz, axy, axz, by ext w; simp; tauto⟩

theorem triple_mem {n : Nat} {Adj : Nat → Nat → Prop} [DecidableRel Adj] (hsym : ∀ a b, Adj a b → Adj b a) {a b c : Nat} (h1 : a < b) (h2 : b < c)
    (h3 : c < n) (hab : Adj a b) (hbc : Adj b c) (hac : Adj a c) : ({a, b, c} : Finset Nat) ∈ triangles n Adj := by
  unfold triangles
  rw [Finset.mem_filter, Finset.mem_powersetCard]
  refine ⟨⟨?_, Finset.card_eq_three.2 ⟨a, b, c, by omega, by omega, by omega, rfl⟩⟩, ?_⟩
  · intro x hx
    simp only [Finset.mem_insert, Finset.mem_singleton] at hx
    rw [Finset.mem_range]
    omega
  · intro x hx y hy hne
    simp only [Finset.mem_insert, Finset.mem_singleton] at hx hy
    rcases hx with rfl | rfl | rfl <;> rcases hy with rfl | rfl | rfl <;>
      first
        | exact absurd rfl hne
        | assumption
        | exact hsym _ _ (by assumption)

theorem triple_inj {a b c a' b' c' : Nat} (h1 : a < b) (h2 : b < c) (h1' : a' < b') (h2' : b' < c')
    (h : ({a, b, c} : Finset Nat) = {a', b', c'}) : a = a' ∧ b = b' ∧ c = c' := by
  have m : ∀ x, (x = a ∨ x = b ∨ x = c) ↔ (x = a' ∨ x = b' ∨ x = c') := by
    intro x
    have := Finset.ext_iff.1 h x
    simpa using this
  have ha := (m a).1 (Or.inl rfl)
  have hb := (m b).1 (Or.inr (Or.inl rfl))
  have hc := (m c).1 (Or.inr (Or.inr rfl))
  have ha' := (m a').2 (Or.inl rfl)
  have hb' := (m b').2 (Or.inr (Or.inl rfl))
  have hc' := (m c').2 (Or.inr (Or.inr rfl))
  omega

theorem common_eq (g : Rows α) (hs : ∀ u, (nbrs g u).Pairwise (· < ·)) (u v : Nat) :
    common g u v = ((nbrs g u).toFinset.filter fun w => Edge g v w).card := by
  unfold common
  rw [← List.toFinset_card_of_nodup (((hs u).imp Nat.ne_of_lt).filter _)]
  congr 1
  ext w
  rw [List.mem_toFinset, List.mem_filter, Finset.mem_filter, List.mem_toFinset, decide_eq_true_eq]
  exact Iff.rfl

theorem count_upper {g : Rows α} {Adj : Nat → Nat → Prop} [DecidableRel Adj] (hsym : ∀ a b, Adj a b → Adj b a) (h : Upper g Adj) :
    ∑ u ∈ Finset.range g.length, ∑ v ∈ (nbrs g u).toFinset, common g u v = (triangles g.length Adj).card := by
  simp only [common_eq g h.sorted]
  simp only [← Finset.card_sigma]
  refine Finset.card_bij (fun x _ => {x.1, x.2.1, x.2.2}) ?_ ?_ ?_
  · rintro ⟨u, v, w⟩ hx
    simp only [Finset.mem_sigma, Finset.mem_range, List.mem_toFinset, Finset.mem_filter] at hx
    obtain ⟨-, h1, h2, h3⟩ := hx
    obtain ⟨a1, a2, a3⟩ := (h.edges u v).1 h1
    obtain ⟨b1, b2, b3⟩ := (h.edges u w).1 h2
    obtain ⟨c1, c2, c3⟩ := (h.edges v w).1 h3
    exact triple_mem hsym a1 c1 c2 a3 c3 b3
  · rintro ⟨u, v, w⟩ hx ⟨u', v', w'⟩ hx' he
    simp only [Finset.mem_sigma, Finset.mem_range, List.mem_toFinset, Finset.mem_filter] at hx hx'
    obtain ⟨e1, e2, e3⟩ := triple_inj ((h.edges u v).1 hx.2.1).1 ((h.edges v w).1 hx.2.2.2).1 ((h.edges u' v').1 hx'.2.1).1
      ((h.edges v' w').1 hx'.2.2.2).1 he
    subst e1 e2 e3; rfl
  · intro s hs
    obtain ⟨a, b, c, h1, h2, h3, hab, hbc, hac, -, -, -, rfl⟩ := triple_surj hs
    refine ⟨⟨a, b, c⟩, ?_, rfl⟩
    simp only [Finset.mem_sigma, Finset.mem_range, List.mem_toFinset, Finset.mem_filter]
    exact ⟨by omega, (h.edges a b).2 ⟨h1, by omega, hab⟩, (h.edges a c).2 ⟨by omega, h3, hac⟩, (h.edges b c).2 ⟨h2, h3, hbc⟩⟩

theorem count_lower {g : Rows α} {Adj : Nat → Nat → Prop} [DecidableRel Adj] (hsym : ∀ a b, Adj a b → Adj b a) (h : Lower g Adj) :
    ∑ u ∈ Finset.range g.length, ∑ v ∈ (nbrs g u).toFinset, common g u v = (triangles g.length Adj).card := by
  simp only [common_eq g h.sorted]
  simp only [← Finset.card_sigma]
  refine Finset.card_bij (fun x _ => {x.2.2, x.2.1, x.1}) ?_ ?_ ?_
  · rintro ⟨u, v, w⟩ hx
    simp only [Finset.mem_sigma, Finset.mem_range, List.mem_toFinset, Finset.mem_filter] at hx
    obtain ⟨-, h1, h2, h3⟩ := hx
    obtain ⟨a1, a2, a3⟩ := (h.edges u v).1 h1
    obtain ⟨b1, b2, b3⟩ := (h.edges u w).1 h2
    obtain ⟨c1, c2, c3⟩ := (h.edges v w).1 h3
    exact triple_mem hsym c1 a1 a2 (hsym _ _ c3) (hsym _ _ a3) (hsym _ _ b3)
  · rintro ⟨u, v, w⟩ hx ⟨u', v', w'⟩ hx' he
    simp only [Finset.mem_sigma, Finset.mem_range, List.mem_toFinset, Finset.mem_filter] at hx hx'
    obtain ⟨e1, e2, e3⟩ := triple_inj ((h.edges v w).1 hx.2.2.2).1 ((h.edges u v).1 hx.2.1).1 ((h.edges v' w').1 hx'.2.2.2).1
      ((h.edges u' v').1 hx'.2.1).1 he
    subst e1 e2 e3; rfl
  · intro s hs
    obtain ⟨a, b, c, h1, h2, h3, -, -, -, hba, hcb, hca, rfl⟩ := triple_surj hs
    refine ⟨⟨c, b, a⟩, ?_, rfl⟩
    simp only [Finset.mem_sigma, Finset.mem_range, List.mem_toFinset, Finset.mem_filter]
    exact ⟨by omega, (h.edges c b).2 ⟨h2, by omega, hcb⟩, (h.edges c a).2 ⟨by omega, h3, hca⟩, (h.edges b a).2 ⟨h1, by omega, hba⟩⟩

/-- C31.  On the upper or lower triangular, sorted adjacency of a simple graph, `triangle_count` returns the number of triangles. -/
theorem triangle_count_correct (g : Rows α) (Adj : Nat → Nat → Prop) [DecidableRel Adj] (hsym : ∀ a b, Adj a b → Adj b a)
    (h : Upper g Adj ∨ Lower g Adj) : triangleCount g = .ok (triangles g.length Adj).card := by
  rcases h with h | h
  · rw [count_rows (fun u v he => ((h.edges u v).1 he).2.1) h.sorted, count_upper hsym h]
  · rw [count_rows (fun u v he => by have := (h.edges u v).1 he; omega) h.sorted, count_lower hsym h]

/-! ## Parallel version -/

theorem workerRow_ok {g : Rows α} (hs : ∀ u, (nbrs g u).Pairwise (· < ·)) (row : List (Nat × α))
    (hr : (ids row).Pairwise (· < ·)) (hin : ∀ e ∈ row, e.1 < g.length) (acc : Nat) :
    ∃ k, workerRow g acc row = .ok (acc + k) ∧
      (∀ big : List Nat, big.Pairwise (· < ·) → (∃ pre, big = pre ++ ids row) →
        (∀ v ∈ ids row, ∀ w ∈ nbrs g v, v < w) → k = ((ids row).map fun v => (big.filter fun w => decide (w ∈ nbrs g v)).length).sum) ∧
      ((∀ v ∈ ids row, ∀ w ∈ nbrs g v, w < v) → k = 0) := by
  induction row generalizing acc with
  | nil => exact ⟨0, rfl, by simp [ids], by simp⟩
  | cons e es ih =>
    have he := hin e (by simp)
    have hr' : (ids es).Pairwise (· < ·) := (List.pairwise_cons.1 hr).2
    have hlt : ∀ w ∈ ids es, e.1 < w := (List.pairwise_cons.1 hr).1
    have hi := intersection_size_set (ids (e :: es)) (ids g[e.1]) hr (by rw [← nbrs_eq he]; exact hs e.1)
    rw [← nbrs_eq he] at hi
    obtain ⟨k, k1, k2, k3⟩ := ih hr' (fun x hx => hin x (by simp [hx])) (acc + ((ids (e :: es)).filter fun w => decide (w ∈ nbrs g e.1)).length)
    refine ⟨((ids (e :: es)).filter fun w => decide (w ∈ nbrs g e.1)).length + k, ?_, ?_, ?_⟩
    · unfold workerRow
      rw [vget_of_lt he, res_bind_ok, ← nbrs_eq he, hi, res_bind_ok, k1, Nat.add_assoc]
    · rintro big hbig ⟨pre, rfl⟩ hup
      have hpre : ∀ w ∈ pre, w < e.1 := fun w hw => (List.pairwise_append.1 hbig).2.2 w hw e.1 (by simp [ids])
      rw [k2 (pre ++ ids (e :: es)) hbig ⟨pre ++ [e.1], by simp [ids]⟩ (fun v hv => hup v (by simp [ids] at hv ⊢; tauto))]
      show _ = ((e.1 :: ids es).map _).sum
      rw [List.map_cons, List.sum_cons]
      congr 1
      rw [List.filter_append, List.length_append]
      have : (pre.filter fun w => decide (w ∈ nbrs g e.1)) = [] := by
        rw [List.filter_eq_nil_iff]
        intro w hw
        simp only [decide_eq_true_eq]
        intro hm
        have := hup e.1 (by simp [ids]) w hm
        have := hpre w hw
        omega
      rw [this]; simp
    · intro hlow
      rw [k3 (fun v hv => hlow v (by simp [ids] at hv ⊢; tauto)), Nat.add_zero, List.length_eq_zero_iff, List.filter_eq_nil_iff]
      intro w hw
      simp only [decide_eq_true_eq]
      intro hm
      have := hlow e.1 (by simp [ids]) w hm
      rcases List.mem_cons.1 hw with rfl | hw
      · omega
      · have := hlt w hw; omega

theorem workerFrom_ok {g : Rows α} {threads : Nat} (ht : 0 < threads) (F : Nat → Nat)
    (hF : ∀ u (hu : u < g.length) acc, workerRow g acc g[u] = .ok (acc + F u)) (i acc : Nat) :
    workerFrom g threads i acc = .ok (acc + ∑ u ∈ (Finset.range g.length).filter (fun u => i ≤ u ∧ u % threads = i % threads), F u) := by
  induction hk : g.length - i using Nat.strongRecOn generalizing i acc with
  | ind k ih =>
    unfold workerFrom
    by_cases c : i < g.length
    · rw [dif_pos ⟨ht, c⟩, vget_of_lt c, res_bind_ok, hF i c, res_bind_ok, ih _ (by omega) (i + threads) _ rfl]
      congr 1
      have : (Finset.range g.length).filter (fun u => i ≤ u ∧ u % threads = i % threads) =
          insert i ((Finset.range g.length).filter (fun u => i + threads ≤ u ∧ u % threads = (i + threads) % threads)) := by
        ext u
        simp only [Finset.mem_filter, Finset.mem_range, Finset.mem_insert, Nat.add_mod_right]
        constructor
        · rintro ⟨h1, h2, h3⟩
          by_cases e : u = i
          · exact Or.inl e
          · right
            refine ⟨h1, ?_, h3⟩
            -- u > i and u ≡ i
            have h4 : (u - i) % threads = 0 := by
              have d1 := Nat.div_add_mod u threads
              have d2 := Nat.div_add_mod i threads
              have d3 : u - i = threads * (u / threads - i / threads) := by rw [Nat.mul_sub]; omega
              rw [d3]; exact Nat.mul_mod_right _ _
            have := Nat.le_of_dvd (by omega) (Nat.dvd_of_mod_eq_zero h4)
            omega
        · rintro (rfl | ⟨h1, h2, h3⟩)
          · exact ⟨c, Nat.le_refl _, rfl⟩
          · exact ⟨h1, by omega, h3⟩
      rw [this, Finset.sum_insert (by simp; omega)]
      omega
    · rw [dif_neg (by omega), Finset.sum_eq_zero]
      · rfl
      · intro u hu
        simp only [Finset.mem_filter, Finset.mem_range] at hu
        omega

theorem par_ok {g : Rows α} {threads : Nat} (ht : 0 < threads) (F : Nat → Nat)
    (hF : ∀ u (hu : u < g.length) acc, workerRow g acc g[u] = .ok (acc + F u)) :
    triangleCountPar g threads = .ok (∑ u ∈ Finset.range g.length, F u) := by
  unfold triangleCountPar
  rw [foldlM_add (List.range threads) (fun tid => workerFrom g threads tid 0)
    (fun tid => ∑ u ∈ (Finset.range g.length).filter (fun u => u % threads = tid), F u)]
  · rw [Nat.zero_add]
    congr 1
    rw [← List.sum_toFinset _ List.nodup_range, show (List.range threads).toFinset = Finset.range threads by ext; simp]
    exact Finset.sum_fiberwise_of_maps_to (fun u _ => Finset.mem_range.2 (Nat.mod_lt u ht)) F
  · intro tid htid
    have htid : tid < threads := by simpa using htid
    rw [workerFrom_ok ht F hF, Nat.zero_add]
    congr 2
    ext u
    simp only [Finset.mem_filter, Finset.mem_range, Nat.mod_eq_of_lt htid]
    constructor
    · rintro ⟨h1, -, h3⟩; exact ⟨h1, h3⟩
    · rintro ⟨h1, h3⟩
      exact ⟨h1, by rw [← h3]; exact Nat.mod_le u threads, h3⟩

/-- C32.  For every number of threads, at least one, the parallel `triangle_count` of an upper triangular, sorted adjacency returns what the
sequential one returns, the number of triangles. -/
theorem triangle_count_parallel (g : Rows α) (Adj : Nat → Nat → Prop) [DecidableRel Adj] (hsym : ∀ a b, Adj a b → Adj b a) (h : Upper g Adj)
    (threads : Nat) (ht : 0 < threads) :
    triangleCountPar g threads = triangleCount g ∧ triangleCountPar g threads = .ok (triangles g.length Adj).card := by
  have hg : InRange g := fun u v he => ((h.edges u v).1 he).2.1
  have hrow : ∀ u (hu : u < g.length) acc, workerRow g acc g[u] = .ok (acc + ∑ v ∈ (nbrs g u).toFinset, common g u v) := by
    intro u hu acc
    obtain ⟨k, k1, k2, -⟩ := workerRow_ok h.sorted g[u]
      (by rw [← nbrs_eq hu]; exact h.sorted u) (fun e he => hg u e.1 (by show e.1 ∈ nbrs g u; rw [nbrs_eq hu]; exact List.mem_map_of_mem he)) acc
    rw [k1, k2 (nbrs g u) (h.sorted u) ⟨[], by rw [nbrs_eq hu]; rfl⟩ (fun v _ w hw => ((h.edges v w).1 hw).1), ← nbrs_eq hu,
      List.sum_toFinset _ ((h.sorted u).imp Nat.ne_of_lt)]
    rfl
  have e1 := par_ok ht _ hrow
  have e2 := count_rows hg h.sorted
  rw [e2]
  exact ⟨e1, by rw [e1, count_upper hsym h]⟩

/-- C32: the orientation matters.  On a lower triangular adjacency the parallel version returns 0, whatever the triangles. -/
theorem triangle_count_parallel_lower (g : Rows α) (Adj : Nat → Nat → Prop) (h : Lower g Adj) (threads : Nat) :
    triangleCountPar g threads = .ok 0 := by
  rcases Nat.eq_zero_or_pos threads with rfl | ht
  · rfl
  · have hg : InRange g := fun u v he => by have := (h.edges u v).1 he; omega
    have := par_ok (g := g) ht (fun _ => 0) (by
      intro u hu acc
      obtain ⟨k, k1, -, k3⟩ := workerRow_ok h.sorted g[u]
        (by rw [← nbrs_eq hu]; exact h.sorted u) (fun e he => hg u e.1 (by show e.1 ∈ nbrs g u; rw [nbrs_eq hu]; exact List.mem_map_of_mem he)) acc
      rw [k1, k3 fun v _ w hw => ((h.edges v w).1 hw).1])
    rw [this]; simp

/-- C32: without threads nothing is counted. -/
theorem triangle_count_no_threads (g : Rows α) : triangleCountPar g 0 = .ok 0 := rfl

/-! ## The hypotheses can be met: the complete graph on four vertices without the edge 0 – 3 -/

def exAdj (u v : Nat) : Prop := u ≠ v ∧ u < 4 ∧ v < 4 ∧ ¬ (u + v = 3 ∧ (u = 0 ∨ v = 0))

instance : DecidableRel exAdj := fun _ _ => inferInstanceAs (Decidable (_ ∧ _))

def exUp : Rows Unit := [[(1, ()), (2, ())], [(2, ()), (3, ())], [(3, ())], []]
def exLow : Rows Unit := [[], [(0, ())], [(0, ()), (1, ())], [(1, ()), (2, ())]]

theorem exAdj_symm (a b : Nat) (h : exAdj a b) : exAdj b a := by unfold exAdj at *; omega

theorem nbrs_of_ge {g : Rows α} {u : Nat} (h : g.length ≤ u) : nbrs g u = [] := by
  unfold nbrs; rw [List.getD_eq_getElem?_getD, List.getElem?_eq_none h]; rfl

theorem exUp_upper : Upper exUp exAdj := by
  constructor
  · intro u
    rcases Nat.lt_or_ge u 4 with c | c
    · have : ∀ u < 4, (nbrs exUp u).Pairwise (· < ·) := by decide
      exact this u c
    · rw [nbrs_of_ge c]; exact List.Pairwise.nil
  · intro u v
    rcases Nat.lt_or_ge u 4 with c | c
    · rcases Nat.lt_or_ge v 4 with d | d
      · have : ∀ u < 4, ∀ v < 4, (Edge exUp u v ↔ u < v ∧ v < 4 ∧ exAdj u v) := by decide
        exact this u c v d
      · refine ⟨fun h => ?_, fun h => absurd h.2.1 (by show ¬ v < 4; omega)⟩
        have : InRange exUp := by decide
        have : v < 4 := this u v h
        omega
    · refine ⟨fun h => absurd h.src_lt (by show ¬ u < 4; omega), fun h => ?_⟩
      have := h.2.2.2.1
      omega

example : triangleCount exUp = .ok (triangles 4 exAdj).card := triangle_count_correct exUp exAdj exAdj_symm (Or.inl exUp_upper)
example : triangleCountPar exUp 3 = .ok (triangles 4 exAdj).card := (triangle_count_parallel exUp exAdj exAdj_symm exUp_upper 3 (by decide)).2
example : triangleCount exUp = .ok 2 := by decide +kernel
example : triangleCount exLow = .ok 2 ∧ triangleCountPar exLow 2 = .ok 0 := by decide +kernel

end NW.Triangle
