import Verif.Props.PageRankExp
import Verif.Lemmas.Brandes

/-! # C93: `page_rank_v3` and `page_rank_v13`, which pass on residuals -/

namespace NW.PageRankExp
open NW.PageRank Spec NW.Brandes

variable {α : Type}

/-- What a round moves from the residual of a vertex to its score. -/
def moved (threshold : ℚ) (res : Nat → ℚ) (i : Nat) : ℚ := if res i > threshold then res i else 0

/-- What a vertex hands to each of its neighbours. -/
def handed (d threshold : ℚ) (deg : List Nat) (res : Nat → ℚ) (i : Nat) : ℚ := moved threshold res i * d / deg.getD i 0

theorem push_all {n : Nat} {d threshold : ℚ} {deg : List Nat} (hdeg : deg.length = n) {rk dl res : Nat → ℚ} {m : RMem} (h1 : Vec n rk m.rank) (h2 : Vec n dl m.delta) (h3 : Vec n res m.residual) :
    ∃ m', (List.range n).foldlM (push d threshold deg) m = .ok m' ∧ Vec n (fun i => rk i + moved threshold res i) m'.rank ∧ Vec n (handed d threshold deg res) m'.delta ∧
      Vec n (fun i => res i - moved threshold res i) m'.residual ∧ (m'.changed = false → ∀ i, i < n → res i > threshold → deg.getD i 0 = 0) := by
  obtain ⟨m', e1, p1, p2, p3, p4⟩ := foldlM_range_inv (n := n) (f := push d threshold deg) (s := m)
    (fun k m' => Vec n (fun i => if i < k then rk i + moved threshold res i else rk i) m'.rank ∧ Vec n (fun i => if i < k then handed d threshold deg res i else dl i) m'.delta ∧
      Vec n (fun i => if i < k then res i - moved threshold res i else res i) m'.residual ∧ (m'.changed = false → ∀ i, i < k → res i > threshold → deg.getD i 0 = 0))
    ⟨h1.congr (by simp), h2.congr (by simp), h3.congr (by simp), fun _ i hi => by omega⟩ (by
      rintro k hk m ⟨q1, q2, q3, q4⟩
      obtain ⟨a1, a2⟩ := q2.vset hk 0
      have b1 := q3.vget hk
      rw [if_neg (by omega)] at b1
      have b2 := q1.vget hk
      rw [if_neg (by omega)] at b2
      have b3 : vget deg k = .ok (deg.getD k 0) := by
        rw [vget_of_lt (by omega), List.getD_eq_getElem?_getD, List.getElem?_eq_getElem (by omega)]; rfl
      unfold push
      rw [a1, res_bind_ok, b1, res_bind_ok]
      by_cases c : res k > threshold
      · have hmv : moved threshold res k = res k := if_pos c
        rw [if_pos c, b2, res_bind_ok]
        obtain ⟨c1, c2⟩ := q1.vset hk (rk k + res k)
        obtain ⟨d1, d2⟩ := q3.vset hk 0
        rw [c1, res_bind_ok, d1, res_bind_ok, b3, res_bind_ok]
        have hr : Vec n (fun i => if i < k + 1 then rk i + moved threshold res i else rk i) (m.rank.set k (rk k + res k)) := c2.congr fun v _ => by
          by_cases e : v = k
          · subst e; rw [if_pos rfl, if_pos (by omega), hmv]
          · rw [if_neg e]
            by_cases f : v < k
            · rw [if_pos f, if_pos (by omega)]
            · rw [if_neg f, if_neg (by omega)]
        have hs : Vec n (fun i => if i < k + 1 then res i - moved threshold res i else res i) (m.residual.set k 0) := d2.congr fun v _ => by
          by_cases e : v = k
          · subst e; rw [if_pos rfl, if_pos (by omega), hmv, sub_self]
          · rw [if_neg e]
            by_cases f : v < k
            · rw [if_pos f, if_pos (by omega)]
            · rw [if_neg f, if_neg (by omega)]
        by_cases g : deg.getD k 0 > 0
        · rw [if_pos g]
          obtain ⟨e1, e2⟩ := a2.vset hk (res k * d / (deg.getD k 0 : ℚ))
          rw [e1, res_bind_ok]
          refine ⟨_, rfl, hr, e2.congr fun v _ => ?_, hs, fun h => by cases h⟩
          by_cases e : v = k
          · subst e; rw [if_pos rfl, if_pos (by omega)]; unfold handed; rw [hmv]
          · rw [if_neg e, if_neg e]
            by_cases f : v < k
            · rw [if_pos f, if_pos (by omega)]
            · rw [if_neg f, if_neg (by omega)]
        · rw [if_neg g]
          have g0 : deg.getD k 0 = 0 := by omega
          refine ⟨_, rfl, hr, a2.congr fun v _ => ?_, hs, fun h i hi hri => ?_⟩
          · by_cases e : v = k
            · subst e; rw [if_pos rfl, if_pos (by omega)]; unfold handed; rw [g0]; simp
            · rw [if_neg e]
              by_cases f : v < k
              · rw [if_pos f, if_pos (by omega)]
              · rw [if_neg f, if_neg (by omega)]
          · by_cases e : i = k
            · subst e; exact g0
            · exact q4 h i (by omega) hri
      · have hmv : moved threshold res k = 0 := if_neg c
        rw [if_neg c]
        refine ⟨_, rfl, q1.congr fun v _ => ?_, a2.congr fun v _ => ?_, q3.congr fun v _ => ?_, fun h i hi hri => ?_⟩
        · by_cases e : v = k
          · subst e; rw [if_neg (by omega), if_pos (by omega), hmv, add_zero]
          · by_cases f : v < k
            · rw [if_pos f, if_pos (by omega)]
            · rw [if_neg f, if_neg (by omega)]
        · by_cases e : v = k
          · subst e; rw [if_pos rfl, if_pos (by omega)]; unfold handed; rw [hmv]; simp
          · rw [if_neg e]
            by_cases f : v < k
            · rw [if_pos f, if_pos (by omega)]
            · rw [if_neg f, if_neg (by omega)]
        · by_cases e : v = k
          · subst e; rw [if_neg (by omega), if_pos (by omega), hmv, sub_zero]
          · by_cases f : v < k
            · rw [if_pos f, if_pos (by omega)]
            · rw [if_neg f, if_neg (by omega)]
        · by_cases e : i = k
          · subst e; exact absurd hri c
          · exact q4 h i (by omega) hri)
  exact ⟨m', e1, p1.congr fun v hv => if_pos hv, p2.congr fun v hv => if_pos hv, p3.congr fun v hv => if_pos hv, p4⟩

theorem gather_ok {n : Nat} {delta : List ℚ} {f : Nat → ℚ} (h : Vec n f delta) (hf : ∀ i, i < n → 0 ≤ f i) (row : List (Nat × α)) (hrow : ∀ e ∈ row, e.1 < n) :
    gather delta row = .ok (row.map fun e => f e.1).sum := by
  suffices H : ∀ acc : ℚ, row.foldlM (fun sum (e : Nat × α) => do
      let x ← vget delta e.1
      if x > 0 then return sum + x else return sum) acc = (.ok (acc + (row.map fun e => f e.1).sum) : Res ℚ) by
    have := H 0
    rw [zero_add] at this
    exact this
  induction row with
  | nil => intro acc; simp [res_pure]
  | cons e row ih =>
    intro acc
    have he := hrow e (by simp)
    rw [List.foldlM_cons, h.vget he, res_bind_ok, List.map_cons, List.sum_cons, ← add_assoc]
    by_cases c : f e.1 > 0
    · rw [if_pos c, res_pure, res_bind_ok]
      exact ih (fun x hx => hrow x (by simp [hx])) _
    · rw [if_neg c, res_pure, res_bind_ok, show f e.1 = 0 from le_antisymm (by linarith) (hf _ he), add_zero]
      exact ih (fun x hx => hrow x (by simp [hx])) _

/-- The residual a vertex has after a round. -/
def pulled (g : Rows α) (reset : Bool) (f res : Nat → ℚ) (i : Nat) : ℚ :=
  if ((nbrs g i).map f).sum > 0 then ((nbrs g i).map f).sum else if reset = true then 0 else res i

theorem pull_all {g : Rows α} (hg : InRange g) (reset : Bool) {delta residual : List ℚ} {f res : Nat → ℚ} (h1 : Vec g.length f delta) (hf : ∀ i, i < g.length → 0 ≤ f i)
    (h2 : Vec g.length res residual) :
    ∃ residual', (List.range g.length).foldlM (pull g reset delta) residual = .ok residual' ∧ Vec g.length (pulled g reset f res) residual' := by
  obtain ⟨r', e1, p1⟩ := foldlM_range_inv (n := g.length) (f := pull g reset delta) (s := residual)
    (fun k r' => Vec g.length (fun i => if i < k then pulled g reset f res i else res i) r')
    (h2.congr (by simp)) (by
      intro k hk r q
      have hrow : g[k]? = some g[k] := List.getElem?_eq_getElem hk
      have hsum : gather delta g[k] = .ok ((nbrs g k).map f).sum := by
        rw [gather_ok h1 hf]
        · unfold nbrs
          rw [List.getD_eq_getElem?_getD, hrow, Option.getD_some, List.map_map]; rfl
        · exact (inRange_iff g).1 hg _ (List.getElem_mem hk)
      have other : ∀ v, v ≠ k → (if v < k then pulled g reset f res v else res v) = if v < k + 1 then pulled g reset f res v else res v := by
        intro v e
        by_cases h : v < k
        · rw [if_pos h, if_pos (by omega)]
        · rw [if_neg h, if_neg (by omega)]
      unfold pull
      rw [vget_of_lt hk, res_bind_ok, hsum, res_bind_ok]
      by_cases c : ((nbrs g k).map f).sum > 0
      · rw [if_pos c]
        obtain ⟨a1, a2⟩ := q.vset hk ((nbrs g k).map f).sum
        refine ⟨_, a1, a2.congr fun v _ => ?_⟩
        by_cases e : v = k
        · subst e; rw [if_pos rfl, if_pos (by omega)]; unfold pulled; rw [if_pos c]
        · rw [if_neg e]; exact other v e
      · rw [if_neg c]
        cases reset with
        | true =>
          rw [if_pos rfl]
          obtain ⟨a1, a2⟩ := q.vset hk 0
          refine ⟨_, a1, a2.congr fun v _ => ?_⟩
          by_cases e : v = k
          · subst e; rw [if_pos rfl, if_pos (by omega)]; unfold pulled; rw [if_neg c, if_pos rfl]
          · rw [if_neg e]; exact other v e
        | false =>
          rw [if_neg (by simp)]
          refine ⟨_, rfl, q.congr fun v _ => ?_⟩
          by_cases e : v = k
          · subst e; rw [if_neg (by omega), if_pos (by omega)]; unfold pulled; rw [if_neg c]; simp
          · exact other v e)
  exact ⟨r', e1, p1.congr fun v hv => if_pos hv⟩

/-! ## The scores stay below the scaled PageRank vector -/

section
variable {g : Rows α} {deg : List Nat} {d : ℚ}

theorem arriving_nonneg {x : Nat → ℚ} (hx : ∀ j, 0 ≤ x j) (i : Nat) : 0 ≤ arriving g (fun j => deg.getD j 0) x i := by
  unfold arriving
  refine List.sum_nonneg fun y hy => ?_
  obtain ⟨j, -, rfl⟩ := List.mem_map.1 hy
  exact div_nonneg (hx j) (by positivity)

theorem handed_sum (d threshold : ℚ) (deg : List Nat) (res : Nat → ℚ) (i : Nat) :
    ((nbrs g i).map (handed d threshold deg res)).sum = d * arriving g (fun j => deg.getD j 0) (moved threshold res) i := by
  unfold arriving
  rw [← List.sum_map_mul_left]
  congr 1
  refine List.map_congr_left fun j _ => ?_
  unfold handed
  ring

theorem moved_nonneg {threshold : ℚ} {res : Nat → ℚ} (h : ∀ j, 0 ≤ res j) (j : Nat) : 0 ≤ moved threshold res j := by
  unfold moved
  split
  · exact h j
  · exact le_refl 0

theorem moved_le {threshold : ℚ} {res : Nat → ℚ} (h : ∀ j, 0 ≤ res j) (j : Nat) : moved threshold res j ≤ res j := by
  unfold moved
  split
  · exact le_refl _
  · exact h j

/-- Nothing is missing where nothing is missing in the equation. -/
theorem missing_nonneg (hg : InRange g) (hdeg : ∀ j, j < g.length → listed g j ≤ deg.getD j 0) (h0 : 0 ≤ d) (h1 : d < 1) {q res : Nat → ℚ} (hr : ∀ j, 0 ≤ res j)
    (h : ∀ i, i < g.length → res i + d * arriving g (fun j => deg.getD j 0) q i ≤ q i) : ∀ i, i < g.length → 0 ≤ q i := by
  have hz := damped_zero g hg (fun j => deg.getD j 0) hdeg h0 h1 (fun j => max (-q j) 0) (fun j => le_max_right _ _) (by
    intro i hi
    have e1 := arriving_mono g (fun j => deg.getD j 0) (x := fun j => (-1) * q j) (y := fun j => max (-q j) 0) (fun j => by rw [neg_one_mul]; exact le_max_left _ _) i
    rw [arriving_smul] at e1
    have e2 := mul_le_mul_of_nonneg_left e1 h0
    have e3 := h i hi
    have e4 := hr i
    refine max_le (by linarith) (mul_nonneg h0 (arriving_nonneg (fun j => le_max_right _ _) i)))
  intro i hi
  have := hz i hi
  have h2 := le_max_left (-q i) 0
  rw [this] at h2
  linarith

/-- What is missing adds up to little. -/
theorem missing_sum (hg : InRange g) (hdeg : ∀ j, j < g.length → listed g j ≤ deg.getD j 0) (h0 : 0 ≤ d) {q res : Nat → ℚ}
    (hq : ∀ i, i < g.length → 0 ≤ q i) (h : ∀ i, i < g.length → q i ≤ res i + d * arriving g (fun j => deg.getD j 0) q i) :
    (1 - d) * ∑ i ∈ Finset.range g.length, q i ≤ ∑ i ∈ Finset.range g.length, res i := by
  let x : Nat → ℚ := fun j => if j < g.length then q j else 0
  have hx : ∀ j, 0 ≤ x j := by
    intro j
    simp only [x]
    split
    · exact hq j ‹_›
    · exact le_refl 0
  have hxq : ∀ j, j < g.length → q j = x j := fun j hj => by simp only [x, if_pos hj]
  have e1 : ∑ i ∈ Finset.range g.length, q i ≤ ∑ i ∈ Finset.range g.length, (res i + d * arriving g (fun j => deg.getD j 0) x i) := by
    refine Finset.sum_le_sum fun i hi => ?_
    rw [← arriving_congr g hg _ hxq]
    exact h i (Finset.mem_range.1 hi)
  rw [Finset.sum_add_distrib, ← Finset.mul_sum] at e1
  have e2 := mul_le_mul_of_nonneg_left (arriving_le g hg (fun j => deg.getD j 0) hdeg x hx) h0
  have e3 : ∑ i ∈ Finset.range g.length, x i = ∑ i ∈ Finset.range g.length, q i := Finset.sum_congr rfl fun i hi => (hxq i (Finset.mem_range.1 hi)).symm
  rw [e3] at e2
  linarith

theorem rounds_ok (hg : InRange g) (hlen : deg.length = g.length) (hdeg : ∀ j, j < g.length → listed g j ≤ deg.getD j 0) (h0 : 0 ≤ d) (h1 : d < 1) (reset : Bool) {threshold : ℚ}
    (G : Nat → ℚ) : ∀ (k : Nat) (m : RMem) (rk dl res : Nat → ℚ), Vec g.length rk m.rank → Vec g.length dl m.delta → Vec g.length res m.residual →
      (∀ j, 0 ≤ res j) → (∀ i, i < g.length → res i + d * arriving g (fun j => deg.getD j 0) (fun j => G j - rk j) i ≤ G i - rk i) →
      ∃ r rk', rRounds g reset d threshold deg k m = .ok r ∧ Vec g.length rk' r ∧ (∀ i, i < g.length → rk i ≤ rk' i ∧ rk' i ≤ G i) ∧
        (0 < k → ∀ i, i < g.length → res i > threshold → rk i + res i ≤ rk' i) ∧
        (threshold = 0 → (∀ i, i < g.length → G i - rk i ≤ res i + d * arriving g (fun j => deg.getD j 0) (fun j => G j - rk j) i) →
          (1 - d) * ∑ i ∈ Finset.range g.length, (G i - rk' i) ≤ d ^ k * ∑ i ∈ Finset.range g.length, res i) := by
  intro k
  induction k with
  | zero =>
    intro m rk dl res v1 v2 v3 hr hq
    have hn := missing_nonneg hg hdeg h0 h1 hr hq
    refine ⟨_, rk, rfl, v1, fun i hi => ⟨le_refl _, by linarith [hn i hi]⟩, fun h => by omega, fun _ he => ?_⟩
    rw [pow_zero, one_mul]
    exact missing_sum hg hdeg h0 hn he
  | succ k ih =>
    intro m rk dl res v1 v2 v3 hr hq
    obtain ⟨m', e1, p1, p2, p3, p4⟩ := push_all (d := d) (threshold := threshold) hlen (m := { m with changed := false }) v1 v2 v3
    have hh : ∀ i, 0 ≤ handed d threshold deg res i := fun i => div_nonneg (mul_nonneg (moved_nonneg hr i) h0) (by positivity)
    obtain ⟨rs, e2, p5⟩ := pull_all hg reset p2 (fun i _ => hh i) p3
    -- the new residuals
    have hsum := handed_sum (g := g) d threshold deg res
    have hr' : ∀ j, 0 ≤ pulled g reset (handed d threshold deg res) (fun i => res i - moved threshold res i) j := by
      intro j
      unfold pulled
      split
      · exact le_of_lt ‹_›
      · split
        · exact le_refl 0
        · linarith [moved_le (threshold := threshold) hr j]
    have hle : ∀ j, pulled g reset (handed d threshold deg res) (fun i => res i - moved threshold res i) j ≤
        res j - moved threshold res j + d * arriving g (fun j => deg.getD j 0) (moved threshold res) j := by
      intro j
      have a1 := moved_le (threshold := threshold) hr j
      have a2 := mul_nonneg h0 (arriving_nonneg (g := g) (deg := deg) (moved_nonneg (threshold := threshold) hr) j)
      unfold pulled
      rw [hsum]
      split
      · linarith
      · split <;> linarith
    have hA : ∀ i, arriving g (fun j => deg.getD j 0) (fun j => G j - (rk j + moved threshold res j)) i =
        arriving g (fun j => deg.getD j 0) (fun j => G j - rk j) i - arriving g (fun j => deg.getD j 0) (moved threshold res) i := by
      intro i
      have := arriving_add g (fun j => deg.getD j 0) (fun j => G j - (rk j + moved threshold res j)) (moved threshold res) i
      rw [← sub_eq_iff_eq_add.2 this]
      congr 2
      funext j
      ring
    have hq' : ∀ i, i < g.length → pulled g reset (handed d threshold deg res) (fun i => res i - moved threshold res i) i +
        d * arriving g (fun j => deg.getD j 0) (fun j => G j - (rk j + moved threshold res j)) i ≤ G i - (rk i + moved threshold res i) := by
      intro i hi
      rw [hA]
      have a1 := hle i
      have a2 := hq i hi
      linarith
    -- without a threshold nothing is lost
    have hexact : threshold = 0 → ∀ j, res j - moved threshold res j = 0 ∧
        pulled g reset (handed d threshold deg res) (fun i => res i - moved threshold res i) j = d * arriving g (fun j => deg.getD j 0) (moved threshold res) j := by
      intro ht j
      have a0 : res j - moved threshold res j = 0 := by
        unfold moved
        subst ht
        split
        · exact sub_self _
        · linarith [hr j]
      refine ⟨a0, ?_⟩
      have a2 := mul_nonneg h0 (arriving_nonneg (g := g) (deg := deg) (moved_nonneg (threshold := threshold) hr) j)
      unfold pulled
      rw [hsum]
      dsimp only
      rw [a0]
      split
      · rfl
      · rw [ite_self]; linarith
    have hsum' : threshold = 0 → ∑ i ∈ Finset.range g.length, pulled g reset (handed d threshold deg res) (fun i => res i - moved threshold res i) i ≤
        d * ∑ i ∈ Finset.range g.length, res i := by
      intro ht
      rw [Finset.sum_congr rfl fun i _ => (hexact ht i).2, ← Finset.mul_sum]
      refine mul_le_mul_of_nonneg_left (le_trans (arriving_le g hg _ hdeg _ (moved_nonneg hr)) ?_) h0
      exact Finset.sum_le_sum fun i _ => moved_le hr i
    have hq2 : threshold = 0 → (∀ i, i < g.length → G i - rk i ≤ res i + d * arriving g (fun j => deg.getD j 0) (fun j => G j - rk j) i) →
        ∀ i, i < g.length → G i - (rk i + moved threshold res i) ≤ pulled g reset (handed d threshold deg res) (fun i => res i - moved threshold res i) i +
          d * arriving g (fun j => deg.getD j 0) (fun j => G j - (rk j + moved threshold res j)) i := by
      intro ht he i hi
      rw [hA, (hexact ht i).2]
      have a1 := he i hi
      have a2 := (hexact ht i).1
      linarith
    have hmv : ∀ i, res i > threshold → moved threshold res i = res i := fun i h => if_pos h
    unfold rRounds
    rw [e1, res_bind_ok, e2, res_bind_ok]
    cases hch : m'.changed with
    | true =>
      rw [if_pos rfl]
      obtain ⟨r, rk', f1, f2, f3, f4, f5⟩ := ih { m' with residual := rs } _ _ _ p1 p2 p5 hr' hq'
      rw [hch] at f1
      refine ⟨r, rk', f1, f2, fun i hi => ⟨?_, (f3 i hi).2⟩, fun _ i hi hri => ?_, fun ht he => ?_⟩
      · linarith [(f3 i hi).1, moved_nonneg (threshold := threshold) hr i]
      · rw [← hmv i hri]; exact (f3 i hi).1
      · refine le_trans (f5 ht (hq2 ht he)) ?_
        rw [pow_succ, mul_assoc]
        exact mul_le_mul_of_nonneg_left (hsum' ht) (pow_nonneg h0 k)
    | false =>
      rw [if_neg (by simp)]
      have hn := missing_nonneg hg hdeg h0 h1 hr' hq'
      refine ⟨_, _, rfl, p1, fun i hi => ⟨by linarith [moved_nonneg (threshold := threshold) hr i], by linarith [hn i hi]⟩, fun _ i hi hri => by rw [hmv i hri], fun ht he => ?_⟩
      have h2 := missing_sum hg hdeg h0 hn (hq2 ht he)
      have h3 : ∑ i ∈ Finset.range g.length, pulled g reset (handed d threshold deg res) (fun i => res i - moved threshold res i) i = 0 := by
        refine Finset.sum_eq_zero fun i _ => ?_
        have hs0 : ((nbrs g i).map (handed d threshold deg res)).sum = 0 := by
          refine List.sum_eq_zero fun x hx => ?_
          obtain ⟨j, hj, rfl⟩ := List.mem_map.1 hx
          have hjn := hg i j hj
          unfold handed
          by_cases c : res j > threshold
          · rw [p4 hch j hjn c]; simp
          · rw [show moved threshold res j = 0 from if_neg c]; simp
        rw [(hexact ht i).2, ← hsum, hs0]
      rw [h3] at h2
      refine le_trans h2 (mul_nonneg (pow_nonneg h0 _) (Finset.sum_nonneg fun i _ => hr i))

end

/-- The first round. -/
theorem residual_ok (g : Rows α) (reset : Bool) (deg : List Nat) (d threshold : ℚ) (maxIters : Nat) (rank : List ℚ) (hu : Usable g deg d rank) (p : Nat → ℚ)
    (hp : IsPageRank g (fun j => deg.getD j 0) d p) :
    ∃ r rk', residual g reset deg d threshold maxIters rank = .ok r ∧ Vec g.length rk' r ∧ (∀ i, i < g.length → 0 ≤ rk' i ∧ rk' i ≤ g.length * p i) ∧
      (0 < maxIters → threshold < 1 - d → ∀ i, i < g.length → 1 - d ≤ rk' i) ∧
      (threshold = 0 → ∑ i ∈ Finset.range g.length, (g.length * p i - rk' i) ≤ g.length * d ^ maxIters) := by
  have hpos : 0 < g.length := by cases g with | nil => exact absurd rfl hu.nonempty | cons => simp
  have hn : (0 : ℚ) < g.length := by exact_mod_cast hpos
  have hd1 := hu.d1
  obtain ⟨r0, e1, e2, e3⟩ := foldlM_range_inv (n := g.length) (f := fun (r : List ℚ) i => vset r i 0) (s := rank)
    (fun k r => r.length = g.length ∧ ∀ i, i < k → r[i]? = some (0 : ℚ)) ⟨hu.rankLen, by omega⟩ (by
      rintro k hk r ⟨h1, h2⟩
      refine ⟨_, vset_of_lt (by omega), by simpa using h1, ?_⟩
      intro i hi
      rw [List.getElem?_set]
      split
      · rename_i e; subst e; rw [if_pos (by omega)]
      · exact h2 i (by omega))
  have hv : Vec g.length (fun _ => (0 : ℚ)) r0 := ⟨e2, e3⟩
  have heq : ∀ i, i < g.length → (g.length : ℚ) * p i - 0 = (1 - d) + d * arriving g (fun j => deg.getD j 0) (fun j => g.length * p j - 0) i := by
    intro i hi
    simp only [sub_zero]
    rw [arriving_smul, hp i hi]
    unfold arriving
    field_simp
  obtain ⟨r, rk', f1, f2, f3, f4, f5⟩ := rounds_ok hu.inRange hu.len hu.degrees hu.d0 hu.d1 reset (threshold := threshold) (fun j => g.length * p j) maxIters
    ⟨r0, List.replicate g.length 0, List.replicate g.length (1 - d), false⟩ _ _ _ hv (Vec.replicate _ _) (Vec.replicate _ _) (fun _ => by linarith)
    (fun i hi => (heq i hi).ge)
  refine ⟨r, rk', ?_, f2, f3, ?_, ?_⟩
  · unfold residual
    rw [e1, res_bind_ok]; exact f1
  · intro hm ht i hi
    have := f4 hm i hi ht
    linarith
  · intro ht
    have := f5 ht fun i hi => (heq i hi).le
    rw [Finset.sum_const, Finset.card_range, nsmul_eq_mul] at this
    have hd : 0 < 1 - d := by linarith
    rw [show d ^ maxIters * ((g.length : ℚ) * (1 - d)) = (1 - d) * (g.length * d ^ maxIters) by ring] at this
    exact le_of_mul_le_mul_left this hd

/-- C93.  `page_rank_v3` and `page_rank_v13` without a threshold: they end without a fault, and the scores divided by the number of vertices approach the PageRank vector from below;
what is missing adds up to at most `d ^ max_iters`.  (Missing: the scores themselves are the claimed result, which `page_rank_v3_v13_not_normalised` refutes; positive thresholds.) -/
theorem page_rank_v3_v13_partial (g : Rows α) (reset : Bool) (deg : List Nat) (d : ℚ) (maxIters : Nat) (rank : List ℚ) (hu : Usable g deg d rank) (p : Nat → ℚ)
    (hp : IsPageRank g (fun j => deg.getD j 0) d p) :
    ∃ r, residual g reset deg d 0 maxIters rank = .ok r ∧ r.length = g.length ∧ (∀ i y, r[i]? = some y → y / g.length ≤ p i) ∧
      ∑ i ∈ Finset.range g.length, (p i - r.getD i 0 / g.length) ≤ d ^ maxIters := by
  have hpos : 0 < g.length := by cases g with | nil => exact absurd rfl hu.nonempty | cons => simp
  have hn : (0 : ℚ) < g.length := by exact_mod_cast hpos
  obtain ⟨r, rk, h1, h2, h3, -, h5⟩ := residual_ok g reset deg d 0 maxIters rank hu p hp
  refine ⟨r, h1, h2.1, ?_, ?_⟩
  · intro i y hy
    have hi : i < g.length := by rw [← h2.1]; exact (List.getElem?_eq_some_iff.1 hy).1
    rw [h2.2 i hi] at hy
    cases hy
    rw [div_le_iff₀ hn, mul_comm]
    exact (h3 i hi).2
  · have h := h5 rfl
    have e : ∑ i ∈ Finset.range g.length, ((g.length : ℚ) * p i - rk i) = g.length * ∑ i ∈ Finset.range g.length, (p i - r.getD i 0 / g.length) := by
      rw [Finset.mul_sum]
      refine Finset.sum_congr rfl fun i hi => ?_
      rw [List.getD_eq_getElem?_getD, h2.2 i (Finset.mem_range.1 hi), Option.getD_some]
      field_simp
    rw [e] at h
    exact le_of_mul_le_mul_left h hn

/-- C93.  The scores of `page_rank_v3` and `page_rank_v13` are not the PageRank: for every graph with more than `1 / (1 - d)` vertices (with the usual `0.85`: seven), every threshold below
`1 - d` and at least one round, every score is at least `1 - d`, so that they add up to more than one, whereas the PageRank adds up to at most one. -/
theorem page_rank_v3_v13_not_normalised (g : Rows α) (reset : Bool) (deg : List Nat) (d threshold : ℚ) (maxIters : Nat) (rank : List ℚ) (hu : Usable g deg d rank)
    (ht : threshold < 1 - d) (hm : 0 < maxIters) (hbig : 1 < (g.length : ℚ) * (1 - d)) :
    ∃ r, residual g reset deg d threshold maxIters rank = .ok r ∧ 1 < r.sum ∧
      ∀ p, IsPageRank g (fun j => deg.getD j 0) d p → ∑ i ∈ Finset.range g.length, p i ≤ 1 ∧ ∃ i, i < g.length ∧ r.getD i 0 ≠ p i := by
  have hpos : 0 < g.length := by cases g with | nil => exact absurd rfl hu.nonempty | cons => simp
  have hn : (0 : ℚ) < g.length := by exact_mod_cast hpos
  have hd1 := hu.d1
  obtain ⟨p, hp⟩ := exists_pageRank g hu.inRange (fun j => deg.getD j 0) hu.degrees hu.d0 hu.d1
  obtain ⟨r, rk, h1, h2, h3, h4, -⟩ := residual_ok g reset deg d threshold maxIters rank hu p hp
  have hsum : r.sum = ∑ i ∈ Finset.range g.length, r.getD i 0 := by
    have e : r = (List.range g.length).map fun i => r.getD i 0 := by rw [← h2.1]; exact eq_map_range r 0
    conv_lhs => rw [e]
    rfl
  have hlow : 1 < r.sum := by
    rw [hsum]
    refine lt_of_lt_of_le hbig ?_
    have : ∑ i ∈ Finset.range g.length, (1 - d) ≤ ∑ i ∈ Finset.range g.length, r.getD i 0 := by
      refine Finset.sum_le_sum fun i hi => ?_
      have hi := Finset.mem_range.1 hi
      rw [List.getD_eq_getElem?_getD, h2.2 i hi, Option.getD_some]
      exact h4 hm ht i hi
    rw [Finset.sum_const, Finset.card_range, nsmul_eq_mul] at this
    exact this
  refine ⟨r, h1, hlow, fun q hq => ?_⟩
  have hb : 0 ≤ (1 - d) / (g.length : ℚ) := div_nonneg (by linarith) hn.le
  have hqn : ∀ i, i < g.length → 0 ≤ q i := fun i hi => le_trans hb (pageRank_bounds g hu.inRange _ hu.degrees hu.d0 hu.d1 hq i hi).1
  have htot : ∑ i ∈ Finset.range g.length, q i ≤ 1 := by
    have := missing_sum hu.inRange hu.degrees hu.d0 (res := fun _ => (1 - d) / (g.length : ℚ)) hqn (fun i hi => (hq i hi).le)
    rw [Finset.sum_const, Finset.card_range, nsmul_eq_mul, mul_div_cancel₀ _ hn.ne'] at this
    have hd : 0 < 1 - d := by linarith
    nlinarith
  refine ⟨htot, ?_⟩
  by_contra hcon
  push Not at hcon
  have : r.sum = ∑ i ∈ Finset.range g.length, q i := by
    rw [hsum]
    exact Finset.sum_congr rfl fun i hi => hcon i (Finset.mem_range.1 hi)
  linarith

/-- Three vertices and `d = 1/2`. -/
example : ∃ r, residual ([[(1, ()), (2, ())], [(0, ())], [(0, ())]] : Rows Unit) false [2, 1, 1] (1 / 2) (1 / 100) 10 [0, 0, 0] = .ok r ∧ 1 < r.sum := by
  obtain ⟨r, h1, h2, -⟩ := page_rank_v3_v13_not_normalised ([[(1, ()), (2, ())], [(0, ())], [(0, ())]] : Rows Unit) false [2, 1, 1] (1 / 2) (1 / 100) 10 [0, 0, 0]
    ⟨by simp, by decide, rfl, by decide, by norm_num, by norm_num, rfl⟩ (by norm_num) (by omega) (by norm_num)
  exact ⟨r, h1, h2⟩

example : ∃ (p : Nat → ℚ) (r : List ℚ), residual ([[(1, ()), (2, ())], [(0, ())], [(0, ())]] : Rows Unit) true [2, 1, 1] (17 / 20) 0 10 [0, 0, 0] = .ok r ∧
    IsPageRank ([[(1, ()), (2, ())], [(0, ())], [(0, ())]] : Rows Unit) (fun j => [2, 1, 1].getD j 0) (17 / 20) p := by
  obtain ⟨p, h1, -, -, -⟩ := page_rank_converges ([[(1, ()), (2, ())], [(0, ())], [(0, ())]] : Rows Unit) (by simp) (by decide) [2, 1, 1] rfl (by decide) (17 / 20) (1 / 10000)
    (by norm_num) (by norm_num) 1000 [0, 0, 0] rfl
  obtain ⟨r, h2, -⟩ := page_rank_v3_v13_partial _ true [2, 1, 1] _ 10 [0, 0, 0] ⟨by simp, by decide, rfl, by decide, by norm_num, by norm_num, rfl⟩ p h1
  exact ⟨p, r, h2, h1⟩

end NW.PageRankExp
