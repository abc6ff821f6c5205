import Verif.Spec.EdgeBetweenness
import Mathlib.Data.List.Count
import Mathlib.Data.List.Flatten
import Mathlib.Algebra.BigOperators.Group.List.Basic
import Mathlib.Tactic.Linarith
import Mathlib.Tactic.Ring

/-! # Betweenness of graphs with the same edges, and of graphs with the edges turned round -/

namespace NW.Spec

variable {α β : Type}

/-! ## The first non-empty list -/

theorem find_perm {X : Type} (φ : X → X) (A B : Nat → List X) (h : ∀ k, (A k).Perm ((B k).map φ)) (l : List Nat) :
    (((l.map A).find? fun x => !x.isEmpty).getD []).Perm ((((l.map B).find? fun x => !x.isEmpty).getD []).map φ) := by
  induction l with
  | nil => simp
  | cons k l ih =>
    rw [List.map_cons, List.map_cons, List.find?_cons, List.find?_cons]
    have he : (A k).isEmpty = (B k).isEmpty := by
      have := (h k).length_eq
      rw [List.length_map] at this
      cases hA : A k <;> cases hB : B k <;> rw [hA, hB] at this <;> simp at this ⊢
    rw [he]
    cases (B k).isEmpty with
    | true => simpa using ih
    | false => simpa using h k

/-- Graphs whose shortest paths correspond have the same fractions. -/
theorem fraction_eq {g : Rows α} {h : Rows β} {s t s' t' v : Nat} (φ : List Nat → List Nat) (hφ : ∀ p, v ∈ φ p ↔ v ∈ p)
    (hp : (shortestPaths g s t).Perm ((shortestPaths h s' t').map φ)) : throughFraction g s t v = throughFraction h s' t' v := by
  unfold throughFraction
  have h1 := hp.length_eq
  have h2 := (hp.filter fun p => decide (v ∈ p)).length_eq
  rw [List.length_map] at h1
  rw [List.filter_map, List.length_map] at h2
  rw [h1, h2]
  congr 3
  refine List.filter_congr fun p _ => ?_
  simp [Function.comp, hφ]

/-! ## Graphs with the same edges -/

theorem walksFrom_perm {g : Rows α} {h : Rows β} (hn : ∀ u, (nbrs g u).Perm (nbrs h u)) (k : Nat) : ∀ s, (walksFrom g k s).Perm (walksFrom h k s) := by
  induction k with
  | zero => intro s; exact .refl _
  | succ k ih =>
    intro s
    unfold walksFrom
    exact (List.Perm.flatMap_right _ (hn s)).trans (List.Perm.flatMap_left _ fun u _ => (ih u).map _)

theorem shortestPaths_perm {g : Rows α} {h : Rows β} (hl : g.length = h.length) (hn : ∀ u, (nbrs g u).Perm (nbrs h u)) (s t : Nat) :
    (shortestPaths g s t).Perm (shortestPaths h s t) := by
  unfold shortestPaths
  rw [hl]
  have := find_perm id (fun k => paths g k s t) (fun k => paths h k s t) (fun k => by rw [List.map_id]; exact (walksFrom_perm hn k s).filter _) (List.range h.length)
  rwa [List.map_id] at this

theorem dependency_congr {g : Rows α} {h : Rows β} (hl : g.length = h.length) (hn : ∀ u, (nbrs g u).Perm (nbrs h u)) (s v : Nat) : dependency g s v = dependency h s v := by
  unfold dependency
  rw [hl]
  congr 1
  refine List.map_congr_left fun t _ => fraction_eq id (fun _ => Iff.rfl) ?_
  rw [List.map_id]
  exact shortestPaths_perm hl hn s t

/-- Betweenness depends only on the number of edges between any two vertices. -/
theorem betweenness_congr {g : Rows α} {h : Rows β} (hl : g.length = h.length) (hn : ∀ u, (nbrs g u).Perm (nbrs h u)) (sources : List Nat) (v : Nat) :
    betweenness g sources v = betweenness h sources v := by
  unfold betweenness
  congr 1
  exact List.map_congr_left fun s _ => dependency_congr hl hn s v

/-! ## Turning the edges round -/

/-- The number of walks that visit the vertices of `p` in turn. -/
def weight (g : Rows α) : List Nat → Nat
  | [] => 1
  | [_] => 1
  | a :: b :: l => (nbrs g a).count b * weight g (b :: l)

theorem sum_indicator (l : List Nat) (q : List Nat) (w : Nat) : (l.map fun u => if q.head? = some u then w else 0).sum = (match q with | [] => 0 | b :: _ => l.count b * w) := by
  induction l with
  | nil => cases q <;> simp
  | cons u l ih =>
    rw [List.map_cons, List.sum_cons, ih]
    cases q with
    | nil => simp
    | cons b q =>
      simp only [List.head?_cons, Option.some.injEq, List.count_cons, beq_iff_eq]
      by_cases h : b = u
      · simp [h]; ring
      · have h' : u ≠ b := fun e => h e.symm
        simp [h, h']

theorem count_walksFrom (g : Rows α) (k : Nat) : ∀ s p, (walksFrom g k s).count p = if p.length = k + 1 ∧ p.head? = some s then weight g p else 0 := by
  induction k with
  | zero =>
    intro s p
    unfold walksFrom
    rw [List.count_singleton]
    match p with
    | [] => simp
    | [a] => 
      by_cases h : a = s
      · simp [weight, h]
      · have h' : s ≠ a := fun e => h e.symm
        simp [h, h']
    | a :: b :: l => simp
  | succ k ih =>
    intro s p
    unfold walksFrom
    rw [List.count_flatMap]
    match p with
    | [] =>
      rw [if_neg (by simp)]
      refine List.sum_eq_zero fun x hx => ?_
      obtain ⟨u, -, rfl⟩ := List.mem_map.1 hx
      exact List.count_eq_zero_of_not_mem (by simp)
    | a :: q =>
      by_cases ha : a = s
      · subst ha
        have : ((nbrs g a).map (List.count (a :: q) ∘ fun u => (walksFrom g k u).map (a :: ·))) = (nbrs g a).map fun u => if q.head? = some u then (if q.length = k + 1 then weight g q else 0) else 0 := by
          refine List.map_congr_left fun u _ => ?_
          have hc := List.count_map_of_injective (walksFrom g k u) (fun l : List Nat => a :: l) (fun x y h => (List.cons.inj h).2) q
          simp only [Function.comp]
          rw [hc, ih]
          split_ifs <;> simp_all
        rw [this, sum_indicator]
        cases q with
        | nil => simp
        | cons b q =>
          simp only [List.length_cons, List.head?_cons, and_true, weight]
          split_ifs <;> first | rfl | omega
      · rw [if_neg (by simpa using fun _ => ha)]
        refine List.sum_eq_zero fun x hx => ?_
        obtain ⟨u, -, rfl⟩ := List.mem_map.1 hx
        refine List.count_eq_zero_of_not_mem fun h => ?_
        obtain ⟨l, -, hl⟩ := List.mem_map.1 h
        exact ha (List.cons.inj hl).1.symm

theorem weight_append (g : Rows α) (l : List Nat) (a b : Nat) : weight g (l ++ [a, b]) = weight g (l ++ [a]) * (nbrs g a).count b := by
  induction l with
  | nil => simp [weight]
  | cons x l ih =>
    cases l with
    | nil => simp [weight]
    | cons y l =>
      simp only [List.cons_append, weight] at ih ⊢
      rw [ih]; ring

theorem weight_reverse {g : Rows α} {h : Rows β} (hn : ∀ a b, (nbrs g a).count b = (nbrs h b).count a) (p : List Nat) : weight h p.reverse = weight g p := by
  induction p with
  | nil => rfl
  | cons a p ih =>
    cases p with
    | nil => rfl
    | cons b p =>
      have : (a :: b :: p).reverse = p.reverse ++ [b, a] := by simp
      rw [this, weight_append]
      have : p.reverse ++ [b] = (b :: p).reverse := by simp
      rw [this, ih, weight, ← hn]; ring

theorem paths_flip {g : Rows α} {h : Rows β} (hn : ∀ a b, (nbrs g a).count b = (nbrs h b).count a) (k s t : Nat) : (paths g k s t).Perm ((paths h k t s).map List.reverse) := by
  have hcount : ∀ {γ : Type} (g : Rows γ) (k s t : Nat) (p : List Nat), (paths g k s t).count p = if p.length = k + 1 ∧ p.head? = some s ∧ p.getLast? = some t then weight g p else 0 := by
    intro γ g k s t p
    unfold paths
    by_cases ht : p.getLast? = some t
    · rw [List.count_filter (by simpa using ht), count_walksFrom]
      simp only [ht, and_true]
    · rw [if_neg (by simp [ht])]
      refine List.count_eq_zero_of_not_mem fun hm => ht ?_
      simpa using (List.mem_filter.1 hm).2
  rw [List.perm_iff_count]
  intro p
  have hr := List.count_map_of_injective (paths h k t s) List.reverse List.reverse_injective p.reverse
  rw [List.reverse_reverse] at hr
  rw [hr, hcount, hcount, List.length_reverse, List.head?_reverse, List.getLast?_reverse, weight_reverse hn]
  simp only [and_comm, and_left_comm]

theorem shortestPaths_flip {g : Rows α} {h : Rows β} (hl : g.length = h.length) (hn : ∀ a b, (nbrs g a).count b = (nbrs h b).count a) (s t : Nat) :
    (shortestPaths g s t).Perm ((shortestPaths h t s).map List.reverse) := by
  unfold shortestPaths
  rw [hl]
  exact find_perm List.reverse (fun k => paths g k s t) (fun k => paths h k t s) (fun k => paths_flip hn k s t) (List.range h.length)

theorem sum_sum_comm (l l' : List Nat) (f : Nat → Nat → ℚ) : (l.map fun a => (l'.map fun b => f a b).sum).sum = (l'.map fun b => (l.map fun a => f a b).sum).sum := by
  induction l with
  | nil => simp
  | cons a l ih =>
    simp only [List.map_cons, List.sum_cons, ih]
    rw [← List.sum_map_add]

/-- With all vertices as sources, the direction of the edges does not matter. -/
theorem betweenness_flip {g : Rows α} {h : Rows β} (hl : g.length = h.length) (hn : ∀ a b, (nbrs g a).count b = (nbrs h b).count a) (v : Nat) :
    betweenness g (List.range g.length) v = betweenness h (List.range h.length) v := by
  unfold betweenness dependency
  rw [hl, sum_sum_comm]
  congr 1
  refine List.map_congr_left fun s _ => ?_
  congr 1
  refine List.map_congr_left fun t _ => ?_
  exact fraction_eq List.reverse (fun _ => List.mem_reverse) (shortestPaths_flip hl hn t s)

end NW.Spec
