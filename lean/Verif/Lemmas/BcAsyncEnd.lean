import Verif.Lemmas.BcAsyncStep
import Verif.Spec.Search
import Verif.Props.Brandes

/-! # Lemmas: when no update is pending the search is complete -/

namespace NW.BcAsync
open Spec Fifo
open NW.Brandes (Vec)
open NW.BcWork

variable {α : Type} {M inf : Nat} {g : Rows α} {s : Nat} {F F' : Nat → Node}

theorem walk_simple {v k : Nat} : Walk (simple g) s v k ↔ Walk g s v k := by
  constructor
  · intro h
    induction h with
    | nil => exact .nil
    | snoc _ he ih => exact ih.snoc (edge_simple.1 he)
  · intro h
    induction h with
    | nil => exact .nil
    | snoc _ he ih => exact ih.snoc (edge_simple.2 he)

theorem isDist_simple {v d : Nat} : IsDist (simple g) s v d ↔ IsDist g s v d := by
  unfold IsDist
  simp only [walk_simple]

/-- No update is pending. -/
def Quiet (inf : Nat) (g : Rows α) (F : Nat → Node) : Prop := Act inf g F fun _ => False

namespace CI

theorem upper (h : CI M inf g s F) (hq : Quiet inf g F) (hinf : g.length < inf) (hg : InRange g) {v k : Nat} (hw : Walk g s v k) : (F v).l ≤ k ∧ (F v).l ≠ inf := by
  induction hw with
  | nil => rw [h.root]; exact ⟨Nat.le_refl _, by omega⟩
  | @snoc x y k _ he ih =>
    have hx : x < g.length := he.src_lt
    have hlt := h.lt hx ih.2
    have : ¬ ((F x).l + 1 < (F y).l) := fun hh => hq x y he ih.2 (Or.inr (Or.inl hh))
    omega

theorem dist (h : CI M inf g s F) (hq : Quiet inf g F) (hinf : g.length < inf) (hg : InRange g) {v : Nat} (hv : v < g.length) (d : Nat) : IsDist g s v d ↔ (F v).l = d ∧ d ≠ inf := by
  constructor
  · rintro ⟨h1, h2⟩
    obtain ⟨a1, a2⟩ := h.upper hq hinf hg h1
    have := h2 _ (h.walk v hv a2)
    have : (F v).l = d := by omega
    exact ⟨this, this ▸ a2⟩
  · rintro ⟨rfl, h2⟩
    exact ⟨h.walk v hv h2, fun k hk => (h.upper hq hinf hg hk).1⟩

theorem mem_preds (h : CI M inf g s F) (hq : Quiet inf g F) (hinf : g.length < inf) {u v : Nat} (hv : v < g.length) :
    u ∈ (F v).preds ↔ Edge g u v ∧ (F u).l ≠ inf ∧ (F v).l = (F u).l + 1 := by
  constructor
  · intro hu
    obtain ⟨a1, a2, a3, a4, a5⟩ := h.pred v hv u hu
    have hlt := h.lt hv a5
    have hui : (F u).l ≠ inf := by omega
    have : ¬ ((F u).l + 1 < (F v).l) := fun hh => hq u v a2 hui (Or.inr (Or.inl hh))
    exact ⟨a2, hui, by omega⟩
  · rintro ⟨a1, a2, a3⟩
    have hu : u < g.length := a1.src_lt
    have hlt := h.lt hu a2
    have : ¬ ((F v).l = (F u).l + 1 ∧ ((F u).edge v).1 ≠ (F u).l) := fun hh => hq u v a1 a2 (Or.inr (Or.inr (Or.inl hh)))
    exact h.recorded hinf hu hv a2 (by omega) a3 (by omega)

theorem mem_succs (h : CI M inf g s F) (hq : Quiet inf g F) (hinf : g.length < inf) (hg : InRange g) {u v : Nat} (hu : u < g.length) :
    v ∈ (F u).succs ↔ Edge g u v ∧ (F u).l ≠ inf ∧ (F v).l = (F u).l + 1 := by
  constructor
  · intro hv
    obtain ⟨a1, a2, a3, a4, a5, a6⟩ := h.succ u hu v hv
    have : ¬ ((F v).l ≤ (F u).l ∧ ((F u).edge v).1 = (F u).l ∧ (F u).l ≠ inf) := fun hh => hq u v a2 a4 (Or.inl hh)
    exact ⟨a2, a4, by omega⟩
  · rintro ⟨a1, a2, a3⟩
    have hv : v < g.length := hg u v a1
    have : ¬ ((F v).l = (F u).l + 1 ∧ ((F u).edge v).1 ≠ (F u).l) := fun hh => hq u v a1 a2 (Or.inr (Or.inr (Or.inl hh)))
    exact h.predsucc v hv u ((h.mem_preds hq hinf hv).2 ⟨a1, a2, a3⟩) (by omega)

theorem count (h : CI M inf g s F) (hq : Quiet inf g F) (hinf : g.length < inf) (hg : InRange g) (d : Nat) :
    ∀ v, v < g.length → (F v).l = d → d ≠ inf → (F v).pc % M = nw (simple g) d s v % M := by
  induction d with
  | zero =>
    intro v hv hl _
    have := h.isRoot hinf hv hl
    subst this
    have hp : (F v).preds = [] := by
      rw [List.eq_nil_iff_forall_not_mem]
      intro x hx
      have := (h.pred v hv x hx).2.2.1
      omega
    rw [h.sum v hv, hp, nw_zero]; simp
  | succ d ih =>
    intro v hv hl hd
    have hvs : v ≠ s := by rintro rfl; rw [h.root] at hl; omega
    have hlt : d + 1 < g.length := by have := h.lt hv (by rw [hl]; exact hd); omega
    have hsame : ((F v).preds.map fun u => ((F u).edge v).2) = (F v).preds.map fun u => (F u).pc := by
      apply List.map_congr_left
      intro u hu
      obtain ⟨a1, a2, a3⟩ := (h.mem_preds hq hinf hv).1 hu
      obtain ⟨b1, -, b3, -⟩ := h.pred v hv u hu
      by_contra hne
      exact hq u v a1 a2 (Or.inr (Or.inr (Or.inr ⟨by omega, a3, hne⟩)))
    rw [h.sum v hv, if_neg hvs, Nat.zero_add, hsame, sum_list_count _ _ g.length fun x hx => (h.pred v hv x hx).1, nw_last (simple_inRange hg), simple_length, Finset.sum_nat_mod,
      Finset.sum_nat_mod (Finset.range g.length) M fun x => nw (simple g) d s x * mult (simple g) x v]
    congr 1
    refine Finset.sum_congr rfl fun x hx => ?_
    rw [Finset.mem_range] at hx
    by_cases e : Edge g x v
    · have hm : mult (simple g) x v = 1 := by
        have h1 := mult_pos.2 (edge_simple.2 e)
        have h2 : mult (simple g) x v ≤ 1 := by
          unfold mult; rw [nbrs_simple]
          exact List.nodup_iff_count_le_one.1 (eraseDups_nodup _) v
        omega
      by_cases c : (F x).l = d
      · have hmem := (h.mem_preds hq hinf hv).2 ⟨e, by omega, by omega⟩
        rw [List.count_eq_one_of_mem (h.predN v hv) hmem, hm, Nat.one_mul, Nat.mul_one]
        exact ih x hx c (by omega)
      · have hmem : x ∉ (F v).preds := fun hh => c (by have := (h.mem_preds hq hinf hv).1 hh; omega)
        rw [List.count_eq_zero_of_not_mem hmem]
        have : nw (simple g) d s x = 0 := by
          rcases Nat.eq_zero_or_pos (nw (simple g) d s x) with k | k
          · exact k
          · exfalso
            have hw := walk_simple.1 ((nw_pos (simple_inRange hg)).1 k)
            obtain ⟨a1, a2⟩ := h.upper hq hinf hg hw
            have : ¬ ((F x).l + 1 < (F v).l) := fun hh => hq x v e a2 (Or.inr (Or.inl hh))
            omega
        rw [this]; simp
    · have hm : mult (simple g) x v = 0 := by
        rcases Nat.eq_zero_or_pos (mult (simple g) x v) with k | k
        · exact k
        · exact absurd (edge_simple.1 (mult_pos.1 k)) e
      have hmem : x ∉ (F v).preds := fun hh => e ((h.mem_preds hq hinf hv).1 hh).1
      rw [List.count_eq_zero_of_not_mem hmem, hm]; simp

theorem searched (h : CI M inf g s F) (hq : Quiet inf g F) (hinf : g.length < inf) (hg : InRange g) (hs : s < g.length) {vs : List Node} (hvs : Vec g.length F vs) : Spec.Searched M inf g s vs := by
  have hget : ∀ v x, vs[v]? = some x → v < g.length ∧ x = F v := by
    intro v x hx
    have hv : v < g.length := by rw [← hvs.1]; exact (List.getElem?_eq_some_iff.1 hx).1
    have := hvs.2 v hv
    rw [hx] at this
    exact ⟨hv, Option.some.inj this⟩
  refine ⟨hvs.1, ?_, ?_, ?_, ?_⟩
  · intro v x d hx hd
    obtain ⟨hv, rfl⟩ := hget v x hx
    obtain ⟨a1, a2⟩ := (h.dist hq hinf hg hv d).1 hd
    refine ⟨a1, ?_⟩
    rw [← Brandes.nw_eq_length (simple_inRange hg) (by rw [simple_length]; exact hs) (isDist_simple.2 hd), ← h.count hq hinf hg d v hv a1 a2, Nat.mod_eq_of_lt (h.pcM v hv)]
  · intro v x hx hr
    obtain ⟨hv, rfl⟩ := hget v x hx
    have : (F v).l = inf := by
      by_contra hne
      exact hr ⟨_, h.walk v hv hne⟩
    exact ⟨this, h.zero v hv this⟩
  · intro v x hx
    obtain ⟨hv, rfl⟩ := hget v x hx
    refine ⟨h.predN v hv, fun u => ?_⟩
    rw [h.mem_preds hq hinf hv]
    constructor
    · rintro ⟨a1, a2, a3⟩
      have hu : u < g.length := a1.src_lt
      have := h.lt hu a2
      exact ⟨(F u).l, (h.dist hq hinf hg hu _).2 ⟨rfl, a2⟩, (h.dist hq hinf hg hv _).2 ⟨a3, by omega⟩, a1⟩
    · rintro ⟨d, a1, a2, a3⟩
      obtain ⟨b1, b2⟩ := (h.dist hq hinf hg a3.src_lt _).1 a1
      obtain ⟨b3, b4⟩ := (h.dist hq hinf hg hv _).1 a2
      exact ⟨a3, by omega, by omega⟩
  · intro v x hx
    obtain ⟨hv, rfl⟩ := hget v x hx
    refine ⟨h.succN v hv, fun w => ?_⟩
    rw [h.mem_succs hq hinf hg hv]
    constructor
    · rintro ⟨a1, a2, a3⟩
      have hw : w < g.length := hg v w a1
      have := h.lt hv a2
      exact ⟨(F v).l, (h.dist hq hinf hg hv _).2 ⟨rfl, a2⟩, (h.dist hq hinf hg hw _).2 ⟨a3, by omega⟩, a1⟩
    · rintro ⟨d, a1, a2, a3⟩
      obtain ⟨b1, b2⟩ := (h.dist hq hinf hg hv _).1 a1
      obtain ⟨b3, b4⟩ := (h.dist hq hinf hg (hg v w a3) _).1 a2
      exact ⟨a3, by omega, by omega⟩

end CI

/-- The nodes at the beginning. -/
theorem init_ok (hM : 0 < M) (hinf : g.length < inf) (hs : s < g.length) : ∃ vs F, BcWork.init M inf g.length s = .ok vs ∧ Vec g.length F vs ∧ CI M inf g s F ∧
    ∀ v, (F v).l = if v = s then 0 else inf := by
  obtain ⟨vs, h1, h2⟩ := modify_vec (Vec.replicate g.length { l := inf, pc := 0, preds := [], succs := [], edge := fun _ => (0, 0) }) hs fun x => { x with l := 0, pc := 1 % M }
  have h1 : BcWork.init M inf g.length s = .ok vs := h1
  refine ⟨vs, _, h1, h2, ?_, fun v => by dsimp only; split <;> rfl⟩
  have hl : ∀ v, (if v = s then ({ l := 0, pc := 1 % M, preds := [], succs := [], edge := fun _ => (0, 0) } : Node) else { l := inf, pc := 0, preds := [], succs := [], edge := fun _ => (0, 0) }).l ≠ inf → v = s := by
    intro v hv
    by_contra hne
    rw [if_neg hne] at hv
    exact hv rfl
  refine ⟨?_, ?_, ?_, ?_, ?_, ?_, ?_, ?_, ?_, ?_, ?_, ?_, ?_, ?_, ?_⟩
  · simp
  · intro v hv hn
    have := hl v hn
    subst this
    refine ⟨[v], by simp, by simp, ?_⟩
    simp [hv]
  · intro v hv hn
    have := hl v hn
    subst this
    simp only [if_true]
    exact .nil
  · intro v hv
    dsimp only
    split
    · exact Nat.mod_lt _ hM
    · exact hM
  · intro v hv w
    dsimp only
    split <;> exact hM
  · intro v hv u hu
    dsimp only at hu
    split at hu <;> simp at hu
  · intro v hv
    dsimp only
    split <;> simp
  · intro v hv hvs hn
    exact absurd (hl v hn) hvs
  · intro v hv hn
    dsimp only at hn ⊢
    split at hn
    · simp at hn; omega
    · rename_i c; simp [c]
  · intro v hv
    dsimp only
    split <;> simp
  · intro v hv
    dsimp only
    split <;> simp
  · intro v hv u hu
    dsimp only at hu
    split at hu <;> simp at hu
  · intro u hu hus hn
    exact absurd (hl u hn) hus
  · intro v hv u hu
    dsimp only at hu
    split at hu <;> simp at hu
  · intro u hu v
    left
    dsimp only
    split <;> rfl

end NW.BcAsync
