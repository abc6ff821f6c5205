import Verif.Lemmas.Oracle
import Verif.Props.SortBy

/-!
# C124: the numbers and chains that the examples print
-/

namespace NW.Oracle
open Spec

variable {T N : Type} [DecidableEq T] [DecidableEq N]

/-! ## The graph that is searched -/

theorem idxOf_inj {K : Type} [DecidableEq K] {l : List K} {x y : K} (hx : x ∈ l) (h : l.idxOf x = l.idxOf y) : x = y := (List.idxOf_inj hx).1 h

theorem prepare_ok (o : Csr.Oracles Unit) (ho : o.Ok) (o' : Csr.Oracles Nat) (ho' : o'.Ok) (w : Nat) (half : Bool) (data : List (Record T N)) (ht : data.length < 2 ^ w) (hn : (data.flatMap Record.cast).length < 2 ^ w) :
    ∃ titles names L, prepare o o' w half data = .ok (titles, names, L) ∧ titles.Ok ∧ names.Ok ∧ InRange L ∧
      (∀ t a, Starred data t a → t ∈ titles.keys) ∧ (∀ a, a ∈ names.keys ↔ ∃ t, Starred data t a) ∧
      ∀ i x, x ∈ L.getD i [] ↔ ∃ t a b, Starred data t a ∧ Starred data t b ∧ (half = true → a ≠ b) ∧ names.keys.idxOf a = i ∧ names.keys.idxOf b = x.1 ∧ titles.keys.idxOf t = x.2 := by
  obtain ⟨titles, names, el, h1, h2, h3, h4, h5, h6, -, h7, h8, h9⟩ := hypergraph_ok w data ht hn
  obtain ⟨G, g1, g2, g3⟩ := adjacency_rows o ho true 0 (by decide) el h4 h5
  obtain ⟨H, k1, k2, k3⟩ := adjacency_rows o ho true 1 (by decide) el h4 h5
  have gE : ∀ u v, Edge G u v ↔ (u, v, ()) ∈ el.contents := fun u v => by rw [edge_iff, g3]; simp
  have kE : ∀ u v, Edge H u v ↔ (v, u, ()) ∈ el.contents := fun u v => by rw [edge_iff, k3]; simp
  have gR : InRange G := fun u v h => by
    have := (h5 _ ((gE u v).1 h)).2
    rw [g2]; exact this
  have kR : InRange H := fun u v h => by
    have := (h5 _ ((kE u v).1 h)).1
    rw [k2]; exact this
  obtain ⟨s, s1, s2, s3, s4⟩ := overlap_ok h6 half G H gR kR (by rw [g2, k2]) (Nat.le_of_eq g2)
  obtain ⟨L, l1, l2, l3⟩ := adjacency_rows o' ho' false 0 (by decide) s s2 s3
  have key : ∀ i j k, (i, j, k) ∈ s.contents ↔ (∃ t a b, Starred data t a ∧ Starred data t b ∧ names.keys.idxOf a = i ∧ names.keys.idxOf b = j ∧ titles.keys.idxOf t = k) ∧ (half = true → i < j) := by
    intro i j k
    rw [s4, kE, gE, h9, h9]
    constructor
    · rintro ⟨⟨t, a, p1, p2, p3⟩, ⟨t', b, q1, q2, q3⟩, hh⟩
      have : t = t' := idxOf_inj (h7 t a p1) (by rw [p2, q2])
      subst this
      exact ⟨⟨t, a, b, p1, q1, p3, q3, p2⟩, hh⟩
    · rintro ⟨⟨t, a, b, p1, q1, p3, q3, p2⟩, hh⟩
      exact ⟨⟨t, a, p1, p2, p3⟩, ⟨t, b, q1, p2, q3⟩, hh⟩
  refine ⟨titles, names, L, ?_, h2, h3, ?_, h7, h8, fun i x => ?_⟩
  · unfold prepare
    rw [h1, res_bind_ok]
    dsimp only
    rw [g1, res_bind_ok, k1, res_bind_ok, s1, res_bind_ok, l1, res_bind_ok]; rfl
  · intro u v h
    obtain ⟨x, hx, rfl⟩ := List.mem_map.1 h
    have := (l3 u x).1 hx
    simp only [Bool.false_eq_true, if_false] at this
    rw [l2]
    rcases this with h | h
    · exact (s3 _ h).2
    · exact (s3 _ h).1
  · rw [l3]
    simp only [Bool.false_eq_true, if_false]
    rw [key, key]
    have mem : ∀ t a, Starred data t a → a ∈ names.keys := fun t a h => (h8 a).2 ⟨t, h⟩
    constructor
    · rintro (⟨⟨t, a, b, p1, q1, p3, q3, p2⟩, hh⟩ | ⟨⟨t, b, a, q1, p1, q3, p3, p2⟩, hh⟩)
      · exact ⟨t, a, b, p1, q1, fun h e => by subst e; have := hh h; omega, p3, q3, p2⟩
      · exact ⟨t, a, b, p1, q1, fun h e => by subst e; have := hh h; omega, p3, q3, p2⟩
    · rintro ⟨t, a, b, p1, q1, hh, p3, q3, p2⟩
      rcases Nat.lt_trichotomy i x.1 with h | h | h
      · exact .inl ⟨⟨t, a, b, p1, q1, p3, q3, p2⟩, fun _ => h⟩
      · refine .inl ⟨⟨t, a, b, p1, q1, p3, q3, p2⟩, fun hf => absurd (idxOf_inj (mem t a p1) (by rw [p3, q3, h])) (hh hf)⟩
      · exact .inr ⟨⟨t, b, a, q1, p1, q3, p3, p2⟩, fun _ => h⟩

/-! ## Links and walks -/

section
variable {data : List (Record T N)} {titles : Dict T} {names : Dict N} {L : Rows Nat}
  (hnames : ∀ a, a ∈ names.keys ↔ ∃ t, Starred data t a)
  (hrow : ∀ i x, x ∈ L.getD i [] ↔ ∃ t a b, Starred data t a ∧ Starred data t b ∧ (true = true → a ≠ b) ∧ names.keys.idxOf a = i ∧ names.keys.idxOf b = x.1 ∧ titles.keys.idxOf t = x.2)
include hnames hrow

theorem edge_costar {i j : Nat} : Edge L i j ↔ ∃ t a b, CoStar data t a b ∧ names.keys.idxOf a = i ∧ names.keys.idxOf b = j := by
  unfold Edge nbrs
  rw [List.mem_map]
  constructor
  · rintro ⟨x, hx, rfl⟩
    obtain ⟨t, a, b, p1, q1, hh, p3, q3, -⟩ := (hrow i x).1 hx
    exact ⟨t, a, b, ⟨hh rfl, p1, q1⟩, p3, q3⟩
  · rintro ⟨t, a, b, ⟨hh, p1, q1⟩, p3, q3⟩
    exact ⟨(j, titles.keys.idxOf t), (hrow i _).2 ⟨t, a, b, p1, q1, fun _ => hh, p3, q3, rfl⟩, rfl⟩

theorem linked_walk {kb a : N} {n : Nat} (h : Linked data kb a n) : Walk L (names.keys.idxOf kb) (names.keys.idxOf a) n := by
  induction h with
  | self => exact .nil
  | link _ hc ih => exact .snoc ih ((edge_costar hnames hrow).2 ⟨_, _, _, hc, rfl, rfl⟩)

theorem walk_linked {kb : N} (hkb : kb ∈ names.keys) {v n : Nat} (h : Walk L (names.keys.idxOf kb) v n) : ∃ a ∈ names.keys, names.keys.idxOf a = v ∧ Linked data kb a n := by
  induction h with
  | nil => exact ⟨kb, hkb, rfl, .self⟩
  | snoc _ he ih =>
    obtain ⟨a, ha, hav, hl⟩ := ih
    obtain ⟨t, a', b, hc, h1, h2⟩ := (edge_costar hnames hrow).1 he
    have : a = a' := idxOf_inj ha (by rw [hav, h1])
    subst this
    exact ⟨b, (hnames b).2 ⟨t, hc.2.2⟩, h2, .link hl hc⟩

theorem walk_iff {kb a : N} (hkb : kb ∈ names.keys) (ha : a ∈ names.keys) {n : Nat} : Walk L (names.keys.idxOf kb) (names.keys.idxOf a) n ↔ Linked data kb a n := by
  refine ⟨fun h => ?_, linked_walk hnames hrow⟩
  obtain ⟨b, hb, h1, h2⟩ := walk_linked hnames hrow hkb h
  rwa [← idxOf_inj hb h1]

theorem dist_iff {kb a : N} (hkb : kb ∈ names.keys) (ha : a ∈ names.keys) {d : Nat} : IsDist L (names.keys.idxOf kb) (names.keys.idxOf a) d ↔ BaconNumber data kb a d := by
  unfold IsDist BaconNumber
  rw [walk_iff hnames hrow hkb ha]
  refine and_congr_right fun _ => forall_congr' fun k => ?_
  rw [walk_iff hnames hrow hkb ha]

end

theorem vget_idxOf {K : Type} [DecidableEq K] {l : List K} {k : K} (h : k ∈ l) : vget l (l.idxOf k) = .ok k := by
  rw [vget_eq_ok, List.getElem?_eq_getElem (List.idxOf_lt_length_of_mem h), List.getElem_idxOf]

/-- The result of the search is determined. -/
theorem Search.det {L : Rows Nat} {kb : Nat} {q₁ q₂ : Res Found} (h₁ : Search L kb q₁) (h₂ : Search L kb q₂) : q₁ = q₂ := by
  obtain ⟨es₁, a1, rfl⟩ := h₁
  obtain ⟨es₂, b1, rfl⟩ := h₂
  have : es₁ = es₂ := by
    unfold Bfs.ERangeVisits at a1 b1
    split at a1
    · rename_i s hs
      rw [hs] at b1
      exact a1.det b1
    · rename_i f hs
      rw [hs] at b1
      exact a1.trans b1.symm
  rw [this]

/-- The results of the program are determined. -/
theorem Searched.det {o : Csr.Oracles Unit} {o' : Csr.Oracles Nat} {w : Nat} {half : Bool} {data : List (Record T N)} {kb : N} {r₁ r₂ : Res (Dict T × Dict N × Found)}
    (h₁ : Searched o o' w half data kb r₁) (h₂ : Searched o o' w half data kb r₂) : r₁ = r₂ := by
  unfold Searched at h₁ h₂
  split at h₁
  · rename_i f hf
    rw [hf] at h₂
    exact h₁.trans h₂.symm
  · rename_i titles names L hf
    rw [hf] at h₂
    obtain ⟨q₁, a1, rfl⟩ := h₁
    obtain ⟨q₂, b1, rfl⟩ := h₂
    rw [a1.det b1]

theorem Searched.only {o : Csr.Oracles Unit} {o' : Csr.Oracles Nat} {w : Nat} {half : Bool} {data : List (Record T N)} {kb : N} {r₁ : Res (Dict T × Dict N × Found)}
    (h : Searched o o' w half data kb r₁) (r : Res (Dict T × Dict N × Found)) : Searched o o' w half data kb r ↔ r = r₁ :=
  ⟨fun h' => h'.det h, fun e => e ▸ h⟩

/-- The number that `furthest` returns is the largest distance. -/
theorem furthest_max {f : Found} (h : f.distance ≠ []) : ∃ m, furthest f = .ok m ∧ m ∈ f.distance ∧ ∀ d ∈ f.distance, d ≤ m := by
  unfold furthest
  cases hd : f.distance with
  | nil => exact absurd hd h
  | cons x xs =>
    refine ⟨_, rfl, ?_⟩
    clear hd h
    induction xs generalizing x with
    | nil => simp
    | cons y ys ih =>
      obtain ⟨h1, h2⟩ := ih (Nat.max x y)
      rw [List.foldl_cons]
      refine ⟨?_, fun d hd => ?_⟩
      · rcases List.mem_cons.1 h1 with h | h
        · rw [h]
          rcases Nat.le_total x y with c | c
          · have : Nat.max x y = y := Nat.max_eq_right c
            rw [this]; simp
          · have : Nat.max x y = x := Nat.max_eq_left c
            rw [this]; simp
        · exact List.mem_cons_of_mem _ (List.mem_cons_of_mem _ h)
      · have h0 := h2 (Nat.max x y) (by simp)
        have hx : x ≤ Nat.max x y := Nat.le_max_left x y
        have hy : y ≤ Nat.max x y := Nat.le_max_right x y
        rcases List.mem_cons.1 hd with rfl | hd
        · omega
        · rcases List.mem_cons.1 hd with rfl | hd
          · omega
          · exact h2 d (List.mem_cons_of_mem _ hd)

/-- C124. Whatever the data, if someone else was in a cast with `kb`: for everyone joined to `kb` by links the example prints the least number of links and, in as many
lines, a chain from them to `kb` in which every line names two of the cast of the title it names; and the furthest distance that it prints is the largest of these numbers. -/
theorem oracle_partial (o : Csr.Oracles Unit) (ho : o.Ok) (o' : Csr.Oracles Nat) (ho' : o'.Ok) (w : Nat) (data : List (Record T N)) (ht : data.length < 2 ^ w) (hn : (data.flatMap Record.cast).length < 2 ^ w)
    (kb : N) (hkb : ∃ t b, CoStar data t kb b) :
    ∃ s, (∀ r, Searched o o' w true data kb r ↔ r = .ok s) ∧ (∀ a d, BaconNumber data kb a d → ∃ ls, report s kb a = .ok (a, d, ls) ∧ ls.length = d ∧ IsPath data kb a ls) ∧
      ∃ m, furthest s.2.2 = .ok m ∧ (∃ a, BaconNumber data kb a m) ∧ ∀ a d, BaconNumber data kb a d → d ≤ m := by
  obtain ⟨titles, names, L, h1, h2, h3, h4, h5, h6, h7⟩ := prepare_ok o ho o' ho' w true data ht hn
  obtain ⟨t, b, hc⟩ := hkb
  have hk : kb ∈ names.keys := (h6 kb).2 ⟨t, hc.2.1⟩
  have hedge := (edge_costar h6 h7).2 ⟨t, kb, b, hc, rfl, rfl⟩
  have hs : names.keys.idxOf kb < L.length := hedge.src_lt
  obtain ⟨x₀, r₀, hrow⟩ : ∃ x₀ r₀, L.getD (names.keys.idxOf kb) [] = x₀ :: r₀ := by
    unfold Edge nbrs at hedge
    cases hr : L.getD (names.keys.idxOf kb) [] with
    | nil => rw [hr] at hedge; simp at hedge
    | cons x r => exact ⟨x, r, rfl⟩
  have hne : x₀.1 ≠ names.keys.idxOf kb := by
    obtain ⟨t', a, c, p1, p2, p3, p4, p5, -⟩ := (h7 (names.keys.idxOf kb) x₀).1 (by rw [hrow]; simp)
    intro h
    refine p3 rfl (idxOf_inj ((h6 a).2 ⟨t', p1⟩) ?_)
    rw [p4, p5, h]
  obtain ⟨es, e1, e2⟩ := Bfs.bfs_edge_range_partial L h4 _ hs x₀ r₀ hrow hne
  obtain ⟨f, f1, f2, f3, f4, f5⟩ := search_ok h4 hs e2
  have known : ∀ a d, BaconNumber data kb a d → a ∈ names.keys := by
    intro a d hd
    cases hd.1 with
    | self => exact hk
    | link _ hc => exact (h6 a).2 ⟨_, hc.2.2⟩
  refine ⟨(titles, names, f), ?_, fun a d hd => ?_, ?_⟩
  · refine Searched.only ?_
    unfold Searched
    rw [h1]
    refine ⟨.ok f, ⟨.ok es, by rw [h3.lookup hk]; exact e1, by rw [res_bind_ok, f1]⟩, rfl⟩
  · have ha : a ∈ names.keys := by
      cases hd.1 with
      | self => exact hk
      | link _ hc => exact (h6 a).2 ⟨_, hc.2.2⟩
    have hpath : ∀ d a, a ∈ names.keys → BaconNumber data kb a d → ∃ ls, path titles.keys names.keys f (names.keys.idxOf kb) d (names.keys.idxOf a) = .ok ls ∧ ls.length = d ∧ IsPath data kb a ls := by
      intro d
      induction d with
      | zero =>
        intro a ha hd
        cases hd.1
        exact ⟨[], by unfold path; rw [if_pos rfl], rfl, rfl⟩
      | succ d ih =>
        intro a ha hd
        have hdist := (dist_iff h6 h7 hk ha).2 hd
        have hne : names.keys.idxOf a ≠ names.keys.idxOf kb := by
          intro h
          have := idxOf_inj ha h
          subst this
          have := hd.2 0 .self
          omega
        obtain ⟨u, k, k1, k2, k3, d', k4, k5⟩ := f4 _ ⟨_, hdist.1⟩ hne
        have : d' + 1 = d + 1 := k5.unique hdist
        have : d' = d := by omega
        subst this
        obtain ⟨t, b, a', p1, p2, p3, p4, p5, p6⟩ := (h7 u _).1 k3
        dsimp only at p5 p6
        have hb := (h6 b).2 ⟨t, p1⟩
        have : a = a' := idxOf_inj ha p5.symm
        subst this
        subst p4 p6
        obtain ⟨ls, l1, l2, l3⟩ := ih b hb ((dist_iff h6 h7 hk hb).1 k4)
        refine ⟨(a, b, t) :: ls, ?_, by simp [l2], rfl, ⟨(p3 rfl).symm, p2, p1⟩, l3⟩
        unfold path
        rw [if_neg hne, vget_idxOf ha, res_bind_ok, vget_eq_ok.2 k1, res_bind_ok, vget_idxOf hb, res_bind_ok, vget_eq_ok.2 k2, res_bind_ok, vget_idxOf (h5 t b p1), res_bind_ok]
        dsimp only
        rw [l1]; rfl
    obtain ⟨ls, l1, l2, l3⟩ := hpath d a ha hd
    refine ⟨ls, ?_, l2, l3⟩
    unfold report
    dsimp only
    rw [h3.lookup ha, h3.lookup hk, vget_idxOf ha, res_bind_ok, vget_eq_ok.2 (f3 _ _ ((dist_iff h6 h7 hk ha).2 hd)), res_bind_ok, l1]; rfl
  · have hne : f.distance ≠ [] := by
      intro h
      rw [h] at f2
      simp at f2
      omega
    obtain ⟨m, e, hm, hle⟩ := furthest_max hne
    refine ⟨m, e, ?_, fun a d hd => hle d (List.mem_of_getElem? (f3 _ _ ((dist_iff h6 h7 hk (known a d hd)).2 hd)))⟩
    obtain ⟨v, hv⟩ := List.mem_iff_getElem?.1 hm
    have hvl : v < L.length := by rw [← f2]; exact (List.getElem?_eq_some_iff.1 hv).1
    by_cases c : Reachable L (names.keys.idxOf kb) v
    · obtain ⟨d, hd⟩ := c.exists_dist
      have := f3 v d hd
      rw [hv] at this
      cases this
      obtain ⟨a, ha, rfl, -⟩ := walk_linked h6 h7 hk hd.1
      exact ⟨a, (dist_iff h6 h7 hk ha).1 hd⟩
    · have := (f5 v hvl c).1
      rw [hv] at this
      cases this
      exact ⟨kb, .self, fun n _ => Nat.zero_le n⟩

/-- C124 fails for those who are not joined to `kb` although they were in a cast with someone: the number printed is 0, the number of `kb`, and one line says that they were in a
cast with the first of the data, in the first title of the data. -/
theorem oracle_unlinked_wrong (o : Csr.Oracles Unit) (ho : o.Ok) (o' : Csr.Oracles Nat) (ho' : o'.Ok) (w : Nat) (data : List (Record T N)) (ht : data.length < 2 ^ w) (hn : (data.flatMap Record.cast).length < 2 ^ w)
    (kb : N) (hkb : ∃ t b, CoStar data t kb b) (a : N) (ha : ∃ t b, CoStar data t a b) (hl : ¬ ∃ n, Linked data kb a n) :
    ∃ s x y, (∀ r, Searched o o' w true data kb r ↔ r = .ok s) ∧ s.2.1.keys[0]? = some x ∧ s.1.keys[0]? = some y ∧ report s kb a = .ok (a, 0, [(a, x, y)]) ∧ ¬ BaconNumber data kb a 0 := by
  obtain ⟨titles, names, L, h1, h2, h3, h4, h5, h6, h7⟩ := prepare_ok o ho o' ho' w true data ht hn
  obtain ⟨t, b, hc⟩ := hkb
  have hk : kb ∈ names.keys := (h6 kb).2 ⟨t, hc.2.1⟩
  have hedge := (edge_costar h6 h7).2 ⟨t, kb, b, hc, rfl, rfl⟩
  have hs : names.keys.idxOf kb < L.length := hedge.src_lt
  obtain ⟨x₀, r₀, hrow⟩ : ∃ x₀ r₀, L.getD (names.keys.idxOf kb) [] = x₀ :: r₀ := by
    unfold Edge nbrs at hedge
    cases hr : L.getD (names.keys.idxOf kb) [] with
    | nil => rw [hr] at hedge; simp at hedge
    | cons x r => exact ⟨x, r, rfl⟩
  have hne : x₀.1 ≠ names.keys.idxOf kb := by
    obtain ⟨t', a, c, p1, p2, p3, p4, p5, -⟩ := (h7 (names.keys.idxOf kb) x₀).1 (by rw [hrow]; simp)
    intro h
    refine p3 rfl (idxOf_inj ((h6 a).2 ⟨t', p1⟩) ?_)
    rw [p4, p5, h]
  obtain ⟨es, e1, e2⟩ := Bfs.bfs_edge_range_partial L h4 _ hs x₀ r₀ hrow hne
  obtain ⟨f, f1, f2, f3, f4, f5⟩ := search_ok h4 hs e2
  obtain ⟨t', b', hc'⟩ := ha
  have han : a ∈ names.keys := (h6 a).2 ⟨t', hc'.2.1⟩
  have hal : names.keys.idxOf a < L.length := ((edge_costar h6 h7).2 ⟨t', a, b', hc', rfl, rfl⟩).src_lt
  obtain ⟨z1, z2, z3⟩ := f5 _ hal fun ⟨n, hw⟩ => hl ⟨n, (walk_iff h6 h7 hk han).1 hw⟩
  have hnek : names.keys.idxOf a ≠ names.keys.idxOf kb := fun h => hl ⟨0, by rw [idxOf_inj han h]; exact .self⟩
  have htt := h5 t kb hc.2.1
  obtain ⟨x, xs, hx⟩ : ∃ x xs, names.keys = x :: xs := by
    cases hr : names.keys with
    | nil => rw [hr] at hk; simp at hk
    | cons x xs => exact ⟨x, xs, rfl⟩
  obtain ⟨y, ys, hy⟩ : ∃ y ys, titles.keys = y :: ys := by
    cases hr : titles.keys with
    | nil => rw [hr] at htt; simp at htt
    | cons x xs => exact ⟨x, xs, rfl⟩
  refine ⟨(titles, names, f), x, y, ?_, by rw [hx]; rfl, by rw [hy]; rfl, ?_, fun h => hl ⟨0, h.1⟩⟩
  · refine Searched.only ?_
    unfold Searched
    rw [h1]
    refine ⟨.ok f, ⟨.ok es, by rw [h3.lookup hk]; exact e1, by rw [res_bind_ok, f1]⟩, rfl⟩
  · unfold report
    dsimp only
    rw [h3.lookup han, h3.lookup hk, vget_idxOf han, res_bind_ok, vget_eq_ok.2 z1, res_bind_ok]
    unfold path
    rw [if_neg hnek, vget_idxOf han, res_bind_ok, vget_eq_ok.2 z2, res_bind_ok, vget_eq_ok.2 (by rw [hx]; rfl : names.keys[0]? = some x), res_bind_ok, vget_eq_ok.2 z3, res_bind_ok,
      vget_eq_ok.2 (by rw [hy]; rfl : titles.keys[0]? = some y), res_bind_ok]
    rfl

/-- C124 fails if `kb` is in the data but in no cast with anyone else: the search accesses memory out of bounds. -/
theorem oracle_alone_out_of_bounds (o : Csr.Oracles Unit) (ho : o.Ok) (o' : Csr.Oracles Nat) (ho' : o'.Ok) (w : Nat) (data : List (Record T N)) (ht : data.length < 2 ^ w) (hn : (data.flatMap Record.cast).length < 2 ^ w)
    (kb : N) (hin : ∃ t, Starred data t kb) (hkb : ¬ ∃ t b, CoStar data t kb b) :
    ∀ r, Searched o o' w true data kb r ↔ r = .error .outOfBounds := by
  obtain ⟨titles, names, L, h1, h2, h3, h4, h5, h6, h7⟩ := prepare_ok o ho o' ho' w true data ht hn
  have hk : kb ∈ names.keys := (h6 kb).2 hin
  refine Searched.only ?_
  unfold Searched
  rw [h1]
  refine ⟨.error .outOfBounds, ⟨.error .outOfBounds, ?_, rfl⟩, rfl⟩
  rw [h3.lookup hk]
  rcases Nat.lt_or_ge (names.keys.idxOf kb) L.length with hs | hs
  · refine Bfs.bfs_edge_range_no_neighbours_faults L _ hs ?_
    cases hr : L.getD (names.keys.idxOf kb) [] with
    | nil => rfl
    | cons x r =>
      exfalso
      obtain ⟨t, a, b, p1, p2, p3, p4, -, -⟩ := (h7 (names.keys.idxOf kb) x).1 (by rw [hr]; simp)
      have : a = kb := idxOf_inj ((h6 a).2 ⟨t, p1⟩) p4
      subst this
      exact hkb ⟨t, b, p3 rfl, p1, p2⟩
  · unfold Bfs.ERangeVisits Bfs.eInit
    rw [vset_of_ge (by simpa using hs)]; rfl

/-- C124 fails if `kb` is not in the data at all: the program goes on with the first one of the data instead. -/
theorem oracle_absent (o : Csr.Oracles Unit) (ho : o.Ok) (o' : Csr.Oracles Nat) (ho' : o'.Ok) (w : Nat) (data : List (Record T N)) (ht : data.length < 2 ^ w) (hn : (data.flatMap Record.cast).length < 2 ^ w)
    (kb : N) (hkb : ¬ ∃ t, Starred data t kb) :
    ∃ titles names L, prepare o o' w true data = .ok (titles, names, L) ∧ ∀ x, names.keys[0]? = some x → ∀ r, Searched o o' w true data kb r ↔ Searched o o' w true data x r := by
  obtain ⟨titles, names, L, h1, h2, h3, h4, h5, h6, h7⟩ := prepare_ok o ho o' ho' w true data ht hn
  refine ⟨titles, names, L, h1, fun x hx r => ?_⟩
  have e1 : names.lookup kb = 0 := h3.lookup_none fun h => hkb ((h6 kb).1 h)
  have e2 : names.lookup x = 0 := by
    have hm : x ∈ names.keys := List.mem_of_getElem? hx
    rw [h3.lookup hm]
    cases hr : names.keys with
    | nil => rw [hr] at hx; simp at hx
    | cons y ys => rw [hr] at hx; simp at hx; subst hx; simp
  unfold Searched
  rw [h1]
  dsimp only
  rw [e1, e2]

/-- The example that reads a second file fails an assertion if the second file names anyone: the list of edges was closed after the first. -/
theorem oracle_dblp_asserts (w : Nat) (data₁ data₂ : List (Record T N)) (ht : data₁.length < 2 ^ w) (hn : (data₁.flatMap Record.cast).length < 2 ^ w) (h : ∃ r ∈ data₂, r.cast ≠ []) :
    hypergraphTwo w data₁ data₂ = .error .assertFailed := by
  obtain ⟨titles, names, el, h1, h2, h3, -, -, -, h4, -, -, -⟩ := hypergraph_ok w data₁ ht hn
  unfold hypergraphTwo
  rw [h1, res_bind_ok]
  suffices ∀ (l : List (Record T N)) (titles : Dict T), titles.Ok → (∃ r ∈ l, r.cast ≠ []) → l.foldlM (recordStep w) (titles, names, el) = (.error .assertFailed : Res _) by
    rw [this data₂ titles h2 h]; rfl
  intro l
  induction l with
  | nil => rintro _ _ ⟨r, hr, -⟩; simp at hr
  | cons r l ih =>
    intro titles ht hex
    obtain ⟨titles', e1, e2, -⟩ := enter_ok ht r.title
    rw [List.foldlM_cons]
    have hstep : recordStep w (titles, names, el) r = (r.cast.foldlM (castStep w titles' r.title) (names, el) >>= fun p => (.ok (titles', p.1, p.2) : Res _)) := by
      unfold recordStep
      dsimp only
      rw [e1, res_bind_ok]; rfl
    rw [hstep]
    cases hr : r.cast with
    | nil =>
      show (recordStep w (titles', names, el) |> fun _ => l.foldlM (recordStep w) (titles', names, el)) = _
      refine ih titles' e2 ?_
      obtain ⟨r', hr', hne⟩ := hex
      rcases List.mem_cons.1 hr' with rfl | hr'
      · exact absurd hr hne
      · exact ⟨r', hr', hne⟩
    | cons a as =>
      obtain ⟨names', f1, -⟩ := enter_ok h3 a
      have : castStep w titles' r.title (names, el) a = .error .assertFailed := by
        unfold castStep
        dsimp only
        rw [f1, res_bind_ok]
        unfold EdgeList.pushBack
        rw [h4]; rfl
      rw [List.foldlM_cons, this]; rfl

/-! ## Examples -/

/-- Stable sorts and the schedule in order. -/
def exSrt {α : Type} : Csr.Oracles α := ⟨id, EdgeList.insertionSort Csr.keyLt, EdgeList.insertionSort fun a b => decide (a < b)⟩

theorem exSrt_ok {α : Type} : (exSrt : Csr.Oracles α).Ok := by
  refine ⟨fun l => List.Perm.refl _, ?_, ?_⟩
  · refine (EdgeList.insertionSort_stable ?_ ?_ ?_).toIsSort <;> simp only [Csr.keyLt, decide_eq_true_eq, decide_eq_false_iff_not, Nat.not_lt] <;> intros <;> omega
  · refine (EdgeList.insertionSort_stable ?_ ?_ ?_).toIsSort <;> simp only [decide_eq_true_eq, decide_eq_false_iff_not, Nat.not_lt] <;> intros <;> omega

/-- Without the test `j > i` (dblp.cpp) the claim fails even for those who are linked: here 3 and 4 are in one cast, and the numbers printed with respect to 3 are 1 for 3 itself and 2 for 4. -/
theorem dblp_wrong : let data : List (Record Nat Nat) := [⟨5, [3, 4]⟩]
    (exSrt : Csr.Oracles Unit).Ok ∧ (exSrt : Csr.Oracles Nat).Ok ∧ CoStar data 5 3 4 ∧ BaconNumber data 3 3 0 ∧ BaconNumber data 3 4 1 ∧
      ∃ s, (∀ r, Searched exSrt exSrt 64 false data 3 r ↔ r = .ok s) ∧ report s 3 3 = .ok (3, 1, []) ∧ report s 3 4 = .ok (4, 2, [(4, 3, 5)]) := by
  have st : ∀ a ∈ [3, 4], Starred [⟨5, [3, 4]⟩] 5 a := fun a ha => ⟨⟨5, [3, 4]⟩, by simp, rfl, ha⟩
  have hc : CoStar [⟨5, [3, 4]⟩] 5 3 4 := ⟨by decide, st 3 (by simp), st 4 (by simp)⟩
  refine ⟨exSrt_ok, exSrt_ok, hc, ⟨.self, fun _ _ => Nat.zero_le _⟩, ⟨.link .self hc, fun n hn => ?_⟩, ?_⟩
  · cases hn with
    | link _ _ => omega
  · have hp : prepare exSrt exSrt 64 false ([⟨5, [3, 4]⟩] : List (Record Nat Nat)) = .ok (⟨[(5, 0)], [5], 1⟩, ⟨[(4, 1), (3, 0)], [3, 4], 2⟩, [[(0, 0), (1, 0), (0, 0), (1, 0)], [(0, 0), (1, 0), (0, 0), (1, 0)]]) := by decide +kernel
    refine ⟨(⟨[(5, 0)], [5], 1⟩, ⟨[(4, 1), (3, 0)], [3, 4], 2⟩, ⟨[1, 2], [0, 0], [0, 0]⟩), ?_, by decide +kernel, by decide +kernel⟩
    refine Searched.only ?_
    unfold Searched
    rw [hp]
    refine ⟨.ok ⟨[1, 2], [0, 0], [0, 0]⟩, ⟨.ok [(0, 0, 0), (0, 1, 0)], ?_, by decide +kernel⟩, rfl⟩
    exact Iter.visits_of_runFuel (n := 10) (by decide +kernel)

/-- The data of the example: two titles with a common name, and one that has nothing to do with them. -/
def exData : List (Record Nat Nat) := [⟨5, [3, 4]⟩, ⟨6, [4, 8]⟩, ⟨7, [9, 10]⟩]

example : (∃ t b, CoStar exData t 3 b) ∧ (∃ t b, CoStar exData t 9 b) ∧ BaconNumber exData 3 8 2 ∧ ¬ ∃ n, Linked exData 3 9 n := by
  have st : ∀ r ∈ exData, ∀ a ∈ r.cast, Starred exData r.title a := fun r hr a ha => ⟨r, hr, rfl, ha⟩
  have cs : ∀ {t a b}, CoStar exData t a b → (a ∈ [3, 4, 8] ↔ b ∈ [3, 4, 8]) ∧ (a = 3 → b = 4) := by
    rintro t a b ⟨hne, ⟨r, hr, hrt, ha⟩, ⟨r', hr', hrt', hb⟩⟩
    simp only [exData, List.mem_cons, List.not_mem_nil, or_false] at hr hr'
    rcases hr with rfl | rfl | rfl <;> rcases hr' with rfl | rfl | rfl <;> simp at hrt hrt' ha hb ⊢ <;> omega
  have h1 : CoStar exData 5 3 4 := ⟨by decide, st ⟨5, [3, 4]⟩ (by simp [exData]) 3 (by simp), st ⟨5, [3, 4]⟩ (by simp [exData]) 4 (by simp)⟩
  have h2 : CoStar exData 6 4 8 := ⟨by decide, st ⟨6, [4, 8]⟩ (by simp [exData]) 4 (by simp), st ⟨6, [4, 8]⟩ (by simp [exData]) 8 (by simp)⟩
  have h3 : CoStar exData 7 9 10 := ⟨by decide, st ⟨7, [9, 10]⟩ (by simp [exData]) 9 (by simp), st ⟨7, [9, 10]⟩ (by simp [exData]) 10 (by simp)⟩
  refine ⟨⟨5, 4, h1⟩, ⟨7, 10, h3⟩, ⟨.link (.link .self h1) h2, fun n hn => ?_⟩, fun ⟨n, hn⟩ => ?_⟩
  · cases hn with
    | link h hc =>
      cases h with
      | self => have := (cs hc).2 rfl; omega
      | link _ _ => omega
  · have key : ∀ a n, Linked exData 3 a n → a ∈ [3, 4, 8] := by
      intro a n h
      induction h with
      | self => simp
      | link _ hc ih => exact (cs hc).1.1 ih
    have := key 9 n hn
    simp at this

end NW.Oracle
