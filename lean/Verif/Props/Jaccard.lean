import Verif.Model.Jaccard
import Verif.Props.Triangle
import Mathlib.Algebra.BigOperators.Fin
import Mathlib.Tactic.NormNum

/-! # Property C34: Jaccard similarity -/

namespace NW.Jaccard
open Spec Util Triangle

/-- The Jaccard index of the neighbourhoods of `u` and `v`. -/
def jaccardIndex (g : Rows ℚ) (u v : Nat) : ℚ :=
  (((nbrs g u).toFinset ∩ (nbrs g v).toFinset).card : ℚ) / (((nbrs g u).toFinset ∪ (nbrs g v).toFinset).card : ℚ)

/-- What becomes of an entry of row `u`. -/
def rescore (g : Rows ℚ) (u : Nat) (e : Nat × ℚ) : Nat × ℚ := (e.1, if u < e.1 then jaccardIndex g u e.1 else e.2)

/-- The graph after the rows below `a` and the first `p` entries of row `a`. -/
def upTo (g : Rows ℚ) (a p : Nat) : Rows ℚ :=
  g.mapIdx fun u row => row.mapIdx fun q e => if u < a ∨ (u = a ∧ q < p) then rescore g u e else e

theorem upTo_getElem? (g : Rows ℚ) (a p u : Nat) : (upTo g a p)[u]? =
    g[u]?.map fun row => row.mapIdx fun q e => if u < a ∨ (u = a ∧ q < p) then rescore g u e else e := by
  unfold upTo; rw [List.getElem?_mapIdx]

theorem upTo_ids (g : Rows ℚ) (a p u : Nat) (row : List (Nat × ℚ)) :
    ids (row.mapIdx fun q e => if u < a ∨ (u = a ∧ q < p) then rescore g u e else e) = ids row := by
  apply List.ext_getElem
  · simp [ids]
  · intro i h1 h2
    simp only [ids, List.getElem_map, List.getElem_mapIdx]
    split <;> rfl

theorem card_facts {g : Rows ℚ} (hs : ∀ u, (nbrs g u).Pairwise (· < ·)) (u v : Nat) :
    common g u v = ((nbrs g u).toFinset ∩ (nbrs g v).toFinset).card ∧
    (nbrs g u).length + (nbrs g v).length - common g u v = ((nbrs g u).toFinset ∪ (nbrs g v).toFinset).card := by
  have h1 : common g u v = ((nbrs g u).toFinset ∩ (nbrs g v).toFinset).card := by
    rw [common_eq g hs]
    congr 1
    ext w
    rw [Finset.mem_filter, Finset.mem_inter, List.mem_toFinset, List.mem_toFinset]
    exact Iff.rfl
  refine ⟨h1, ?_⟩
  have h2 := Finset.card_union_add_card_inter (nbrs g u).toFinset (nbrs g v).toFinset
  rw [List.toFinset_card_of_nodup ((hs u).imp Nat.ne_of_lt), List.toFinset_card_of_nodup ((hs v).imp Nat.ne_of_lt)] at h2
  omega

theorem entry_step {g : Rows ℚ} (hg : InRange g) (hs : ∀ u, (nbrs g u).Pairwise (· < ·)) {a p : Nat} (ha : a < g.length) (hp : p < g[a].length) (c : Nat) :
    jaccardEntry a (upTo g a p, c) p = .ok (upTo g a (p + 1), c + if a < g[a][p].1 then 1 else 0) := by
  have hlen : (upTo g a p).length = g.length := by simp [upTo]
  have hrow : (upTo g a p)[a]'(by omega) = g[a].mapIdx fun q e => if a < a ∨ (a = a ∧ q < p) then rescore g a e else e := by
    simp [upTo]
  unfold jaccardEntry
  rw [vget_of_lt (by omega : a < (upTo g a p).length), res_bind_ok, hrow, vget_of_lt (by simpa using hp), res_bind_ok]
  have hent : (g[a].mapIdx fun q e => if a < a ∨ (a = a ∧ q < p) then rescore g a e else e)[p]'(by simpa using hp) = g[a][p] := by simp
  rw [hent]
  have hed : Edge g a g[a][p].1 := by
    show _ ∈ nbrs g a
    rw [nbrs_eq ha]; exact List.mem_map_of_mem (List.getElem_mem hp)
  have hv := hg _ _ hed
  by_cases h : a < g[a][p].1
  · rw [if_pos h, if_pos h, vget_of_lt (show g[a][p].1 < (upTo g a p).length by omega), res_bind_ok]
    have hrv : (upTo g a p)[g[a][p].1]'(by omega) =
        g[g[a][p].1].mapIdx fun q e => if g[a][p].1 < a ∨ (g[a][p].1 = a ∧ q < p) then rescore g g[a][p].1 e else e := by simp [upTo]
    rw [hrv, upTo_ids, upTo_ids]
    have hi := intersection_size_set (ids g[a]) (ids g[g[a][p].1]) (by rw [← nbrs_eq ha]; exact hs a) (by rw [← nbrs_eq hv]; exact hs _)
    rw [← nbrs_eq ha, ← nbrs_eq hv] at hi ⊢
    rw [hi, res_bind_ok]
    obtain ⟨f1, f2⟩ := card_facts hs a g[a][p].1
    have hl1 : (nbrs g a).length = g[a].length := by rw [nbrs_eq ha]; simp [ids]
    have hl2 : (nbrs g g[a][p].1).length = g[g[a][p].1].length := by rw [nbrs_eq hv]; simp [ids]
    rw [List.length_mapIdx, List.length_mapIdx, ← hl1, ← hl2]
    show (Except.ok (_, _) : Res _) = _
    congr 2
    apply List.ext_getElem?
    intro u
    rw [List.getElem?_set, upTo_getElem?, upTo_getElem?]
    by_cases hu : a = u
    · subst hu
      rw [if_pos rfl, if_pos (show a < (upTo g a p).length by omega), List.getElem?_eq_getElem ha]
      simp only [Option.map_some]
      congr 1
      apply List.ext_getElem?
      intro q
      rw [List.getElem?_set, List.getElem?_mapIdx, List.getElem?_mapIdx, List.length_mapIdx]
      by_cases hq : p = q
      · subst hq
        rw [if_pos rfl, if_pos hp, List.getElem?_eq_getElem hp]
        simp only [Option.map_some, rescore, h, if_true]
        rw [if_pos (Or.inr ⟨trivial, Nat.lt_succ_self p⟩)]
        unfold jaccardIndex
        rw [← f1, ← f2]; rfl
      · rw [if_neg hq]
        congr 1
        funext e
        have : (q < p) ↔ (q < p + 1) := by omega
        simp only [this]
    · rw [if_neg hu]
      congr 1
      funext row
      congr 1
      funext q e
      have : (u < a ∨ (u = a ∧ q < p)) ↔ (u < a ∨ (u = a ∧ q < p + 1)) := by omega
      simp only [this]
  · rw [if_neg h, if_neg h]
    show (Except.ok (_, _) : Res _) = _
    congr 2
    apply List.ext_getElem?
    intro u
    rw [upTo_getElem?, upTo_getElem?]
    by_cases hu : a = u
    · subst hu
      rw [List.getElem?_eq_getElem ha]
      simp only [Option.map_some]
      congr 1
      apply List.ext_getElem?
      intro q
      rw [List.getElem?_mapIdx, List.getElem?_mapIdx]
      by_cases hq : p = q
      · subst hq
        rw [List.getElem?_eq_getElem hp]
        simp [rescore, h]
      · congr 1
        funext e
        have : (q < p) ↔ (q < p + 1) := by omega
        simp only [this]
    · congr 1
      funext row
      congr 1
      funext q e
      have : (u < a ∨ (u = a ∧ q < p)) ↔ (u < a ∨ (u = a ∧ q < p + 1)) := by omega
      simp only [this]

theorem upTo_row_end (g : Rows ℚ) {a : Nat} (ha : a < g.length) : upTo g a g[a].length = upTo g (a + 1) 0 := by
  apply List.ext_getElem?
  intro u
  rw [upTo_getElem?, upTo_getElem?]
  by_cases hu : u < g.length
  · rw [List.getElem?_eq_getElem hu]
    simp only [Option.map_some]
    congr 1
    apply List.ext_getElem
    · simp
    · intro q h1 h2
      simp only [List.length_mapIdx] at h1
      simp only [List.getElem_mapIdx]
      by_cases c : u = a
      · subst c
        rw [if_pos (Or.inr ⟨rfl, by simpa using h1⟩), if_pos (Or.inl (Nat.lt_succ_self u))]
      · have : (u < a ∨ (u = a ∧ q < g[a].length)) ↔ (u < a + 1 ∨ (u = a + 1 ∧ q < 0)) := by omega
        simp only [this]
  · rw [List.getElem?_eq_none (by omega)]; rfl

theorem jaccard_run {g : Rows ℚ} (hg : InRange g) (hs : ∀ u, (nbrs g u).Pairwise (· < ·)) :
    jaccard g = .ok (upTo g g.length 0, ∑ u ∈ Finset.range g.length, ((nbrs g u).filter fun v => decide (u < v)).length) := by
  have h0 : upTo g 0 0 = g := by
    apply List.ext_getElem?
    intro u
    rw [upTo_getElem?]
    cases g[u]? with
    | none => rfl
    | some row =>
      simp only [Option.map_some]
      congr 1
      apply List.ext_getElem
      · simp
      · intro q h1 h2; simp
  unfold jaccard
  obtain ⟨r, hr1, hr2⟩ := foldlM_range_inv (n := g.length) (s := (g, 0))
    (f := fun s u => do let row ← vget s.1 u; (List.range row.length).foldlM (init := s) (jaccardEntry u))
    (fun k s => s = (upTo g k 0, ∑ u ∈ Finset.range k, ((nbrs g u).filter fun v => decide (u < v)).length))
    (by rw [h0]; rfl)
    (by
      intro a ha s hsx
      subst hsx
      have hlen : (upTo g a 0).length = g.length := by simp [upTo]
      have hrl : ((upTo g a 0)[a]'(by omega)).length = g[a].length := by simp [upTo]
      refine ⟨(upTo g (a + 1) 0, ∑ u ∈ Finset.range (a + 1), ((nbrs g u).filter fun v => decide (u < v)).length), ?_, rfl⟩
      simp only []
      rw [vget_of_lt (by omega : a < (upTo g a 0).length), res_bind_ok, hrl]
      obtain ⟨t, ht1, ht2⟩ := foldlM_range_inv (n := g[a].length)
        (s := (upTo g a 0, ∑ u ∈ Finset.range a, ((nbrs g u).filter fun v => decide (u < v)).length)) (f := jaccardEntry a)
        (fun p s => s = (upTo g a p, (∑ u ∈ Finset.range a, ((nbrs g u).filter fun v => decide (u < v)).length) +
          (((ids g[a]).take p).filter fun v => decide (a < v)).length))
        (by simp)
        (by
          intro p hp s hsx
          subst hsx
          refine ⟨_, entry_step hg hs ha hp _, ?_⟩
          congr 1
          rw [List.take_add_one, List.filter_append, List.length_append, Nat.add_assoc]
          congr 2
          have : (ids g[a])[p]? = some g[a][p].1 := by simp [ids, hp]
          rw [this]
          by_cases c : a < g[a][p].1 <;> simp [c])
      rw [ht1, ht2, upTo_row_end g ha, Finset.sum_range_succ]
      congr 3
      rw [nbrs_eq ha, List.take_of_length_le (by simp [ids])])
  rw [hr1, hr2]

/-- C34.  On a graph with sorted, duplicate-free rows `jaccard_similarity` keeps the structure of the graph, stores at every entry of row `u` with
target `v > u` the size of the intersection of the two neighbourhoods divided by the size of their union, leaves the other entries alone, and
returns the number of entries scored.  The denominator is never zero. -/
theorem jaccard_correct (g : Rows ℚ) (hg : InRange g) (hs : ∀ u, (nbrs g u).Pairwise (· < ·)) :
    ∃ (g' : Rows ℚ) (c : Nat), jaccard g = .ok (g', c) ∧ g'.length = g.length ∧
      (∀ u p : Nat, (g'.getD u [])[p]? = (g.getD u [])[p]?.map fun e : Nat × ℚ =>
        (e.1, if u < e.1 then
            (((nbrs g u).toFinset ∩ (nbrs g e.1).toFinset).card : ℚ) / (((nbrs g u).toFinset ∪ (nbrs g e.1).toFinset).card : ℚ)
          else e.2)) ∧
      c = ∑ u ∈ Finset.range g.length, ((nbrs g u).filter fun v => decide (u < v)).length ∧
      (∀ u v, Edge g u v → ((nbrs g u).toFinset ∪ (nbrs g v).toFinset).card ≠ 0) := by
  refine ⟨_, _, jaccard_run hg hs, by simp [upTo], ?_, rfl, ?_⟩
  · intro u p
    rw [List.getD_eq_getElem?_getD, List.getD_eq_getElem?_getD, upTo_getElem?]
    by_cases hu : u < g.length
    · rw [List.getElem?_eq_getElem hu]
      simp only [Option.map_some, Option.getD_some]
      rw [List.getElem?_mapIdx]
      congr 1
      funext e
      rw [if_pos (Or.inl hu)]; rfl
    · have : g[u]? = none := List.getElem?_eq_none (by omega)
      rw [this]; rfl
  · intro u v he
    exact Finset.card_ne_zero_of_mem (Finset.mem_union_left _ (List.mem_toFinset.2 he))

/-! ## The hypotheses can be met: a triangle with a tail -/

def exG : Rows ℚ := [[(1, 0), (2, 0)], [(0, 0), (2, 0)], [(0, 0), (1, 0), (3, 0)], [(2, 0)]]

theorem exG_sorted (u : Nat) : (nbrs exG u).Pairwise (· < ·) := by
  rcases Nat.lt_or_ge u 4 with c | c
  · have : ∀ u < 4, (nbrs exG u).Pairwise (· < ·) := by decide
    exact this u c
  · rw [nbrs_of_ge c]; exact List.Pairwise.nil

example : ∃ g' c, jaccard exG = .ok (g', c) ∧ c = 4 := by
  obtain ⟨g', c, h1, -, -, h2, -⟩ := jaccard_correct exG (by decide) exG_sorted
  exact ⟨g', c, h1, h2.trans (by decide)⟩

example : jaccardIndex exG 0 1 = 1 / 3 := by
  have h1 : ((nbrs exG 0).toFinset ∩ (nbrs exG 1).toFinset).card = 1 := by decide
  have h2 : ((nbrs exG 0).toFinset ∪ (nbrs exG 1).toFinset).card = 3 := by decide
  unfold jaccardIndex; rw [h1, h2]; norm_num

end NW.Jaccard
