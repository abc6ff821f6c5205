import Verif.Spec.Credits
import Verif.Props.Oracle
import Mathlib.Data.List.Induction

/-!
# C140: the numbers that the example on the tables of IMDb prints
-/

namespace NW.Imdb
open Spec Oracle

variable {T N : Type} [DecidableEq T] [DecidableEq N]

/-! ## The maps -/

theorem lookup_fill {K R : Type} [DecidableEq K] (key : R → K) (keep : R → Bool) (rows : List R) (k : K) :
    (∃ i r, rows[i]? = some r ∧ keep r = true ∧ key r = k ∧ lookup (fill key keep rows) k = i) ∨ (∀ r ∈ rows, keep r = true → key r ≠ k) ∧ lookup (fill key keep rows) k = 0 := by
  induction rows using List.reverseRecOn with
  | nil => exact .inr ⟨by simp, rfl⟩
  | append_singleton rows r ih =>
    have hf : fill key keep (rows ++ [r]) = if keep r then (key r, rows.length) :: fill key keep rows else fill key keep rows := by
      unfold fill
      rw [List.zipIdx_append, List.foldl_append]
      simp
    rw [hf]
    have old : lookup (if keep r then (key r, rows.length) :: fill key keep rows else fill key keep rows) k = lookup (fill key keep rows) k ∨ keep r = true ∧ key r = k := by
      by_cases hk : keep r = true
      · by_cases he : key r = k
        · exact .inr ⟨hk, he⟩
        · left
          rw [if_pos hk]
          unfold lookup
          rw [List.find?_cons_of_neg (by simpa using he)]
      · left
        rw [if_neg hk]
    by_cases h : keep r = true ∧ key r = k
    · left
      refine ⟨rows.length, r, by simp, h.1, h.2, ?_⟩
      rw [if_pos h.1]
      unfold lookup
      rw [List.find?_cons_of_pos (by simpa using h.2)]; rfl
    · have old := old.resolve_right h
      rw [old]
      rcases ih with ⟨i, r', h1, h2, h3, h4⟩ | ⟨h1, h2⟩
      · exact .inl ⟨i, r', by rw [List.getElem?_append_left (List.getElem?_eq_some_iff.1 h1).1]; exact h1, h2, h3, h4⟩
      · refine .inr ⟨fun x hx hk he => ?_, h2⟩
        rcases List.mem_append.1 hx with hx | hx
        · exact h1 x hx hk he
        · simp at hx
          subst hx
          exact h ⟨hk, he⟩

theorem title_movie {t : Tables T N} {k : T} (h : IsMovie t k) : ∃ x, t.titles[title t k]? = some (k, "movie", x) := by
  obtain ⟨x, hx⟩ := h
  rcases lookup_fill (fun r : T × String × String => r.1) (fun r => r.2.1 == "movie") t.titles k with ⟨i, ⟨a, b, c⟩, h1, h2, h3, h4⟩ | ⟨h1, -⟩
  · simp at h2 h3
    subst h2 h3
    exact ⟨c, by rw [← h1, ← h4]; rfl⟩
  · exact absurd rfl (h1 _ hx (by simp))

theorem title_other {t : Tables T N} {k : T} (h : ¬ IsMovie t k) : title t k = 0 := by
  rcases lookup_fill (fun r : T × String × String => r.1) (fun r => r.2.1 == "movie") t.titles k with ⟨i, ⟨a, b, c⟩, h1, h2, h3, h4⟩ | ⟨-, h1⟩
  · simp at h2 h3
    subst h2 h3
    exact absurd ⟨c, List.mem_of_getElem? h1⟩ h
  · exact h1

theorem name_listed {t : Tables T N} {a : N} (h : IsListed t a) : ∃ x, t.names[name t a]? = some (a, x) := by
  obtain ⟨x, hx⟩ := h
  rcases lookup_fill (fun r : N × String => r.1) (fun _ => true) t.names a with ⟨i, ⟨b, c⟩, h1, -, h3, h4⟩ | ⟨h1, -⟩
  · simp at h3
    subst h3
    exact ⟨c, by rw [← h1, ← h4]; rfl⟩
  · exact absurd rfl (h1 _ hx rfl)

theorem title_le (t : Tables T N) (k : T) : title t k ≤ t.titles.length := by
  by_cases h : IsMovie t k
  · obtain ⟨x, hx⟩ := title_movie h
    exact Nat.le_of_lt (List.getElem?_eq_some_iff.1 hx).1
  · rw [title_other h]; omega

theorem name_le (t : Tables T N) (a : N) : name t a ≤ t.names.length := by
  by_cases h : IsListed t a
  · obtain ⟨x, hx⟩ := name_listed h
    exact Nat.le_of_lt (List.getElem?_eq_some_iff.1 hx).1
  · rcases lookup_fill (fun r : N × String => r.1) (fun _ => true) t.names a with ⟨i, r, h1, -, -, h4⟩ | ⟨-, h1⟩
    · have h4 : name t a = i := h4
      rw [h4]
      exact Nat.le_of_lt (List.getElem?_eq_some_iff.1 h1).1
    · have h1 : name t a = 0 := h1
      omega

theorem title_inj {t : Tables T N} {k k' : T} (h : IsMovie t k) (h' : IsMovie t k') (he : title t k = title t k') : k = k' := by
  obtain ⟨x, hx⟩ := title_movie h
  obtain ⟨y, hy⟩ := title_movie h'
  rw [he, hy] at hx
  simp at hx
  exact hx.1.symm

theorem name_inj {t : Tables T N} {a b : N} (h : IsListed t a) (h' : IsListed t b) (he : name t a = name t b) : a = b := by
  obtain ⟨x, hx⟩ := name_listed h
  obtain ⟨y, hy⟩ := name_listed h'
  rw [he, hy] at hx
  simp at hx
  exact hx.1.symm

/-! ## The graph that is searched -/

theorem hyperedges_ok (w : Nat) (t : Tables T N) (ht : t.titles.length + 1 < 2 ^ w) (hn : t.names.length + 1 < 2 ^ w) :
    ∃ el, hyperedges w t = .ok el ∧ el.Wf ∧ EndpointsBelow el.numVertices el.contents ∧ el.numVertices < 2 ^ w ∧
      ∀ i j u, (i, j, u) ∈ el.contents ↔ ∃ k a, Acted t k a ∧ title t k = i ∧ name t a = j := by
  have hB : max t.titles.length t.names.length + 1 < 2 ^ w := by omega
  obtain ⟨el, h1, h2⟩ := foldlM_good (B := max t.titles.length t.names.length + 1)
    (f := fun (el : EdgeList Unit) (r : T × N × String) => if r.2.2 == "actor" || r.2.2 == "actress" then el.pushBack w (title t r.1) (name t r.2.1) () else .ok el)
    (g := fun r => if r.2.2 == "actor" || r.2.2 == "actress" then [(title t r.1, name t r.2.1, ())] else []) (t.principals.drop 1)
    (fun r hr el es hg => by
      by_cases hc : (r.2.2 == "actor" || r.2.2 == "actress") = true
      · rw [if_pos hc, if_pos hc]
        have := title_le t r.1
        have := name_le t r.2.1
        exact hg.push hB (by omega) (by omega) _
      · rw [if_neg hc, if_neg hc]
        exact ⟨el, rfl, by simpa using hg⟩) (good_new _)
  refine ⟨el.closeForPushBack, ?_, h2.wf, ?_, Nat.lt_of_le_of_lt h2.card hB, fun i j u => ?_⟩
  · unfold hyperedges
    rw [h1, res_bind_ok]; rfl
  · have := h2.below
    rw [← h2.contents] at this
    exact this
  · show (i, j, u) ∈ el.contents ↔ _
    rw [h2.contents, List.nil_append, List.mem_flatMap]
    constructor
    · rintro ⟨⟨k, a, c⟩, hr, h⟩
      by_cases hc : (c == "actor" || c == "actress") = true
      · rw [if_pos hc] at h
        simp at h
        exact ⟨k, a, ⟨c, hr, by simpa using hc⟩, h.1.symm, h.2.symm⟩
      · rw [if_neg hc] at h
        simp at h
    · rintro ⟨k, a, ⟨c, hr, hc⟩, rfl, rfl⟩
      exact ⟨(k, a, c), hr, by rw [if_pos (by simpa using hc)]; simp⟩

/-- Two different rows of the table of names are neighbours if there are credits of theirs with the same entry of the map of the titles. -/
theorem prepare_rows (o : Csr.Oracles Unit) (ho : o.Ok) (o' : Csr.Oracles Nat) (ho' : o'.Ok) (w : Nat) (t : Tables T N) (ht : t.titles.length + 1 < 2 ^ w) (hn : t.names.length + 1 < 2 ^ w) :
    ∃ L, prepare o o' w t = .ok L ∧ InRange L ∧ ∀ i x, x ∈ L.getD i [] ↔
      (∃ k k' a b, Acted t k a ∧ Acted t k' b ∧ title t k = x.2 ∧ title t k' = x.2 ∧ name t a = i ∧ name t b = x.1) ∧ i ≠ x.1 := by
  obtain ⟨el, h1, h4, h5, h6, h9⟩ := hyperedges_ok w t ht hn
  obtain ⟨G, g1, g2, g3⟩ := adjacency_rows o ho true 0 (by decide) el h4 h5
  obtain ⟨H, k1, k2, k3⟩ := adjacency_rows o ho true 1 (by decide) el h4 h5
  have gE : ∀ u v, Edge G u v ↔ (u, v, ()) ∈ el.contents := fun u v => by rw [edge_iff, g3]; simp
  have kE : ∀ u v, Edge H u v ↔ (v, u, ()) ∈ el.contents := fun u v => by rw [edge_iff, k3]; simp
  have gR : InRange G := fun u v h => by
    have := (h5 _ ((gE u v).1 h)).2
    rw [g2]; exact this
  have kR : InRange H := fun u v h => by
    have := (h5 _ ((kE u v).1 h)).1
    rw [k2]; exact this
  obtain ⟨s, s1, s2, s3, s4⟩ := overlap_ok h6 true G H gR kR (by rw [g2, k2]) (Nat.le_of_eq g2)
  obtain ⟨L, l1, l2, l3⟩ := adjacency_rows o' ho' false 0 (by decide) s s2 s3
  have key : ∀ i j k, (i, j, k) ∈ s.contents ↔ (∃ m m' a b, Acted t m a ∧ Acted t m' b ∧ title t m = k ∧ title t m' = k ∧ name t a = i ∧ name t b = j) ∧ i < j := by
    intro i j k
    rw [s4, kE, gE, h9, h9]
    constructor
    · rintro ⟨⟨m, a, p1, p2, p3⟩, ⟨m', b, q1, q2, q3⟩, hh⟩
      exact ⟨⟨m, m', a, b, p1, q1, p2, q2, p3, q3⟩, hh rfl⟩
    · rintro ⟨⟨m, m', a, b, p1, q1, p2, q2, p3, q3⟩, hh⟩
      exact ⟨⟨m, a, p1, p2, p3⟩, ⟨m', b, q1, q2, q3⟩, fun _ => hh⟩
  refine ⟨L, ?_, ?_, fun i x => ?_⟩
  · unfold prepare
    rw [h1, res_bind_ok, g1, res_bind_ok, k1, res_bind_ok, s1, res_bind_ok, l1]
  · intro u v h
    obtain ⟨x, hx, rfl⟩ := List.mem_map.1 h
    have := (l3 u x).1 hx
    simp only [Bool.false_eq_true, if_false] at this
    rw [l2]
    rcases this with h | h
    · exact (s3 _ h).2
    · exact (s3 _ h).1
  · rw [l3]
    simp only [Bool.false_eq_true, if_false]
    rw [key, key]
    constructor
    · rintro (⟨⟨m, m', a, b, p1, q1, p2, q2, p3, q3⟩, hh⟩ | ⟨⟨m', m, b, a, q1, p1, q2, p2, q3, p3⟩, hh⟩)
      · exact ⟨⟨m, m', a, b, p1, q1, p2, q2, p3, q3⟩, by omega⟩
      · exact ⟨⟨m, m', a, b, p1, q1, p2, q2, p3, q3⟩, by omega⟩
    · rintro ⟨⟨m, m', a, b, p1, q1, p2, q2, p3, q3⟩, hh⟩
      rcases Nat.lt_or_gt_of_ne hh with h | h
      · exact .inl ⟨⟨m, m', a, b, p1, q1, p2, q2, p3, q3⟩, h⟩
      · exact .inr ⟨⟨m', m, b, a, q1, p1, q2, p2, q3, p3⟩, h⟩

theorem walk_zero {L : Rows Nat} {u v : Nat} (h : Walk L u v 0) : u = v := by
  cases h
  rfl

/-- The search, if the source has a neighbour. -/
theorem search_found {L : Rows Nat} (hL : InRange L) {s : Nat} (hself : ∀ x ∈ L.getD s [], s ≠ x.1) {v : Nat} (he : Edge L s v) :
    ∃ f, Search L s (.ok f) ∧ (∀ v d, IsDist L s v d → f.distance[v]? = some d) ∧
      (∀ v, Reachable L s v → v ≠ s → ∃ u k, f.parents[v]? = some u ∧ f.together[v]? = some k ∧ (v, k) ∈ L.getD u [] ∧ ∃ d, IsDist L s u d ∧ IsDist L s v (d + 1)) := by
  obtain ⟨x₀, r₀, hrow⟩ : ∃ x₀ r₀, L.getD s [] = x₀ :: r₀ := by
    unfold Edge nbrs at he
    cases hr : L.getD s [] with
    | nil => rw [hr] at he; simp at he
    | cons x r => exact ⟨x, r, rfl⟩
  obtain ⟨es, e1, e2⟩ := Bfs.bfs_edge_range_partial L hL _ he.src_lt x₀ r₀ hrow (hself x₀ (by rw [hrow]; simp)).symm
  obtain ⟨f, f1, f2, f3, f4, -⟩ := search_ok hL he.src_lt e2
  exact ⟨f, ⟨.ok es, e1, by rw [res_bind_ok, f1]⟩, f3, f4⟩

/-! ## Links and walks -/

section
variable {t : Tables T N} {L : Rows Nat} (hm : ∀ k a, Acted t k a → IsMovie t k) (hl : ∀ k a, Acted t k a → IsListed t a)
  (hrow : ∀ i x, x ∈ L.getD i [] ↔ (∃ k k' a b, Acted t k a ∧ Acted t k' b ∧ title t k = x.2 ∧ title t k' = x.2 ∧ name t a = i ∧ name t b = x.1) ∧ i ≠ x.1)
include hm hl hrow

theorem row_coactors {i : Nat} {x : Nat × Nat} : x ∈ L.getD i [] ↔ ∃ k a b, CoActors t k a b ∧ title t k = x.2 ∧ name t a = i ∧ name t b = x.1 := by
  rw [hrow]
  constructor
  · rintro ⟨⟨k, k', a, b, p1, q1, p2, q2, p3, q3⟩, hh⟩
    have := title_inj (hm k a p1) (hm k' b q1) (by rw [p2, q2])
    subst this
    exact ⟨k, a, b, ⟨fun e => hh (by rw [← p3, ← q3, e]), hm k a p1, p1, q1⟩, p2, p3, q3⟩
  · rintro ⟨k, a, b, ⟨hne, -, p1, q1⟩, p2, p3, q3⟩
    refine ⟨⟨k, k, a, b, p1, q1, p2, p2, p3, q3⟩, fun e => hne (name_inj (hl k a p1) (hl k b q1) ?_)⟩
    rw [p3, q3, e]

theorem edge_coactors {i j : Nat} : Edge L i j ↔ ∃ k a b, CoActors t k a b ∧ name t a = i ∧ name t b = j := by
  unfold Edge nbrs
  rw [List.mem_map]
  constructor
  · rintro ⟨x, hx, rfl⟩
    obtain ⟨k, a, b, h1, -, h3, h4⟩ := (row_coactors hm hl hrow).1 hx
    exact ⟨k, a, b, h1, h3, h4⟩
  · rintro ⟨k, a, b, h1, h3, h4⟩
    exact ⟨(j, title t k), (row_coactors hm hl hrow).2 ⟨k, a, b, h1, rfl, h3, h4⟩, rfl⟩

theorem walk_joined {kb a : N} (hkb : IsListed t kb) (ha : IsListed t a) {n : Nat} : Walk L (name t kb) (name t a) n ↔ Joined t kb a n := by
  constructor
  · suffices ∀ v, Walk L (name t kb) v n → ∃ a, IsListed t a ∧ name t a = v ∧ Joined t kb a n by
      intro h
      obtain ⟨b, h1, h2, h3⟩ := this _ h
      rwa [name_inj ha h1 h2.symm]
    intro v h
    induction h with
    | nil => exact ⟨kb, hkb, rfl, .self⟩
    | snoc _ he ih =>
      obtain ⟨a, ha, hav, hj⟩ := ih
      obtain ⟨k, a', b, hc, h1, h2⟩ := (edge_coactors hm hl hrow).1 he
      have : a = a' := name_inj ha (hl k a' hc.2.2.1) (by rw [hav, h1])
      subst this
      exact ⟨b, hl k b hc.2.2.2, h2, .link hj hc⟩
  · intro h
    clear ha
    induction h with
    | self => exact .nil
    | link _ hc ih => exact .snoc ih ((edge_coactors hm hl hrow).2 ⟨_, _, _, hc, rfl, rfl⟩)

theorem dist_number {kb a : N} (hkb : IsListed t kb) (ha : IsListed t a) {d : Nat} : IsDist L (name t kb) (name t a) d ↔ Number t kb a d := by
  unfold IsDist Number
  rw [walk_joined hm hl hrow hkb ha]
  refine and_congr_right fun _ => forall_congr' fun k => ?_
  rw [walk_joined hm hl hrow hkb ha]

end

theorem Searched.only {o : Csr.Oracles Unit} {o' : Csr.Oracles Nat} {w : Nat} {t : Tables T N} {kb : N} {r₁ : Res Found} (h : Searched o o' w t kb r₁) (r : Res Found) :
    Searched o o' w t kb r ↔ r = r₁ := by
  refine ⟨fun h' => ?_, fun e => e ▸ h⟩
  unfold Searched at h h'
  split at h
  · rename_i f hf
    rw [hf] at h'
    exact h'.trans h.symm
  · rename_i L hf
    rw [hf] at h'
    exact Search.det h' h

/-! ## The claims -/

/-- C140. If all acting credits are for movies that are listed, and of persons who are listed, and someone else acted in a movie with `kb`: for everyone joined to `kb` by links the
example prints the least number of links and, in as many lines, a chain from them to `kb` in which every line names two of the actors of the movie it names. -/
theorem imdb_partial (o : Csr.Oracles Unit) (ho : o.Ok) (o' : Csr.Oracles Nat) (ho' : o'.Ok) (w : Nat) (t : Tables T N) (ht : t.titles.length + 1 < 2 ^ w) (hn : t.names.length + 1 < 2 ^ w)
    (hm : ∀ k a, Acted t k a → IsMovie t k) (hl : ∀ k a, Acted t k a → IsListed t a) (kb : N) (hkb : ∃ k b, CoActors t k kb b) :
    ∃ f, (∀ r, Searched o o' w t kb r ↔ r = .ok f) ∧ ∀ a d, Number t kb a d → ∃ ls, report t f kb a = .ok (d, ls) ∧ ls.length = d ∧ IsChain t kb a ls := by
  obtain ⟨L, h1, h2, hrow⟩ := prepare_rows o ho o' ho' w t ht hn
  obtain ⟨k₀, b₀, hc⟩ := hkb
  have hk : IsListed t kb := hl k₀ kb hc.2.2.1
  obtain ⟨f, f1, f3, f4⟩ := search_found h2 (fun x hx => ((hrow _ x).1 hx).2) ((edge_coactors hm hl hrow).2 ⟨k₀, kb, b₀, hc, rfl, rfl⟩)
  refine ⟨f, Searched.only (by unfold Searched; rw [h1]; exact f1), fun a d hd => ?_⟩
  have ha : IsListed t a := by
    cases hd.1 with
    | self => exact hk
    | link _ hc => exact hl _ _ hc.2.2.2
  have hpath : ∀ d a, IsListed t a → Number t kb a d → ∃ ls, path t.titles t.names f (name t kb) d (name t a) = .ok ls ∧ ls.length = d ∧ IsChain t kb a ls := by
    intro d
    induction d with
    | zero =>
      intro a ha hd
      cases hd.1
      exact ⟨[], by unfold path; rw [if_pos rfl], rfl, rfl⟩
    | succ d ih =>
      intro a ha hd
      have hdist := (dist_number hm hl hrow hk ha).2 hd
      have hne : name t a ≠ name t kb := by
        intro h
        have := name_inj ha hk h
        subst this
        have := hd.2 0 .self
        omega
      obtain ⟨u, k, k1, k2, k3, d', k4, k5⟩ := f4 _ ⟨_, hdist.1⟩ hne
      have : d' + 1 = d + 1 := k5.unique hdist
      have : d' = d := by omega
      subst this
      obtain ⟨m, b, a', p1, p2, p3, p4⟩ := (row_coactors hm hl hrow).1 k3
      dsimp only at p2 p4
      have hb := hl m b p1.2.2.1
      have : a = a' := name_inj ha (hl m a' p1.2.2.2) p4.symm
      subst this
      subst p2 p3
      obtain ⟨ls, l1, l2, l3⟩ := ih b hb ((dist_number hm hl hrow hk hb).1 k4)
      obtain ⟨xa, ea⟩ := name_listed ha
      obtain ⟨xb, eb⟩ := name_listed hb
      obtain ⟨xm, em⟩ := title_movie p1.2.1
      refine ⟨((a, xa), (b, xb), (m, "movie", xm)) :: ls, ?_, by simp [l2], rfl, List.mem_of_getElem? ea, List.mem_of_getElem? eb, List.mem_of_getElem? em,
        ⟨p1.1.symm, p1.2.1, p1.2.2.2, p1.2.2.1⟩, l3⟩
      unfold path
      rw [if_neg hne, vget_eq_ok.2 ea, res_bind_ok, vget_eq_ok.2 k1, res_bind_ok, vget_eq_ok.2 eb, res_bind_ok, vget_eq_ok.2 k2, res_bind_ok, vget_eq_ok.2 em, res_bind_ok]
      dsimp only
      rw [l1]; rfl
  obtain ⟨ls, l1, l2, l3⟩ := hpath d a ha hd
  refine ⟨ls, ?_, l2, l3⟩
  unfold report
  rw [vget_eq_ok.2 (f3 _ _ ((dist_number hm hl hrow hk ha).2 hd)), res_bind_ok, l1]; rfl

/-- C140 fails with credits for titles that are not movies: whenever `kb` and `a` have such credits, for any two titles, and never acted in the same movie, the example prints the number 1 for `a`, and a line that
says that the two acted together in the title of the first row of the table, which is the heading. -/
theorem imdb_not_movies_wrong (o : Csr.Oracles Unit) (ho : o.Ok) (o' : Csr.Oracles Nat) (ho' : o'.Ok) (w : Nat) (t : Tables T N) (ht : t.titles.length + 1 < 2 ^ w) (hn : t.names.length + 1 < 2 ^ w)
    (hl : ∀ k a, Acted t k a → IsListed t a) (head : T × String × String) (hhead : t.titles[0]? = some head) (kb a : N) (hne : a ≠ kb)
    (hkb : ∃ k, Acted t k kb ∧ ¬ IsMovie t k) (ha : ∃ k, Acted t k a ∧ ¬ IsMovie t k) (hno : ¬ ∃ k, CoActors t k kb a) :
    (∃ f x y, (∀ r, Searched o o' w t kb r ↔ r = .ok f) ∧ x.1 = a ∧ y.1 = kb ∧ report t f kb a = .ok (1, [(x, y, head)])) ∧ ¬ Number t kb a 1 := by
  obtain ⟨L, h1, h2, hrow⟩ := prepare_rows o ho o' ho' w t ht hn
  obtain ⟨k₁, p1, p2⟩ := hkb
  obtain ⟨k₂, q1, q2⟩ := ha
  have la := hl _ _ q1
  have lk := hl _ _ p1
  have hnn : name t kb ≠ name t a := fun h => hne (name_inj lk la h).symm
  have hx : (name t a, 0) ∈ L.getD (name t kb) [] := (hrow _ _).2 ⟨⟨k₁, k₂, kb, a, p1, q1, title_other p2, title_other q2, rfl, rfl⟩, hnn⟩
  have he : Edge L (name t kb) (name t a) := List.mem_map_of_mem (f := Prod.fst) hx
  obtain ⟨f, f1, f3, f4⟩ := search_found h2 (fun x hx => ((hrow _ x).1 hx).2) he
  have hd : IsDist L (name t kb) (name t a) 1 := by
    refine ⟨.snoc .nil he, fun n hw => ?_⟩
    rcases n with _ | n
    · exact absurd (walk_zero hw) hnn
    · omega
  obtain ⟨u, k, r1, r2, r3, d, r4, r5⟩ := f4 _ ⟨_, hd.1⟩ hnn.symm
  have hd0 : d + 1 = 1 := r5.unique hd
  have hd0 : d = 0 := by omega
  subst hd0
  have hu : u = name t kb := (walk_zero r4.1).symm
  subst hu
  obtain ⟨⟨m, m', b, c, s1, s2, s3, s4, s5, s6⟩, -⟩ := (hrow _ _).1 r3
  dsimp only at s3 s4 s6
  have e1 : b = kb := name_inj (hl _ _ s1) lk s5
  have e2 : c = a := name_inj (hl _ _ s2) la s6
  subst e1 e2
  have hk0 : k = 0 := by
    by_cases m1 : IsMovie t m
    · by_cases m2 : IsMovie t m'
      · exfalso
        have := title_inj m1 m2 (by rw [s3, s4])
        subst this
        exact hno ⟨m, hne.symm, m1, s1, s2⟩
      · rw [← s4, title_other m2]
    · rw [← s3, title_other m1]
  subst hk0
  obtain ⟨x, ex⟩ := name_listed la
  obtain ⟨y, ey⟩ := name_listed lk
  refine ⟨⟨f, (c, x), (b, y), Searched.only (by unfold Searched; rw [h1]; exact f1), rfl, rfl, ?_⟩, fun h => ?_⟩
  · unfold report
    rw [vget_eq_ok.2 (f3 _ _ hd), res_bind_ok]
    unfold path
    rw [if_neg hnn.symm, vget_eq_ok.2 ex, res_bind_ok, vget_eq_ok.2 r1, res_bind_ok, vget_eq_ok.2 ey, res_bind_ok, vget_eq_ok.2 r2, res_bind_ok, vget_eq_ok.2 hhead, res_bind_ok]
    dsimp only
    unfold path
    rw [if_pos rfl]; rfl
  · cases h.1 with
    | link hj hc =>
      cases hj
      exact hno ⟨_, hc⟩

/-! ## Examples -/

/-- The tables of the example: two movies with a common actor. -/
def exTables : Tables Nat Nat :=
  ⟨[(0, "titleType", "primaryTitle"), (1, "movie", "A"), (2, "movie", "B")], [(0, "primaryName"), (5, "K"), (6, "L"), (7, "M")],
    [(0, 0, "category"), (1, 5, "actor"), (1, 6, "actress"), (1, 7, "director"), (2, 6, "actress"), (2, 7, "actor")]⟩

theorem exTables_acted (k a : Nat) : Acted exTables k a ↔ (k, a) ∈ [(1, 5), (1, 6), (2, 6), (2, 7)] := by
  unfold Acted exTables
  simp only [List.drop_succ_cons, List.drop_zero, List.mem_cons, Prod.mk.injEq, List.not_mem_nil, or_false]
  constructor
  · rintro ⟨c, h, hc⟩
    rcases h with ⟨rfl, rfl, rfl⟩ | ⟨rfl, rfl, rfl⟩ | ⟨rfl, rfl, rfl⟩ | ⟨rfl, rfl, rfl⟩ | ⟨rfl, rfl, rfl⟩ <;> simp at hc ⊢
  · rintro (⟨rfl, rfl⟩ | ⟨rfl, rfl⟩ | ⟨rfl, rfl⟩ | ⟨rfl, rfl⟩) <;> simp

example : (∀ k a, Acted exTables k a → IsMovie exTables k) ∧ (∀ k a, Acted exTables k a → IsListed exTables a) ∧ (∃ k b, CoActors exTables k 5 b) ∧ Number exTables 5 7 2 := by
  have hm : ∀ k a, Acted exTables k a → IsMovie exTables k := by
    intro k a h
    rw [exTables_acted] at h
    simp at h
    rcases h with ⟨rfl, rfl⟩ | ⟨rfl, rfl⟩ | ⟨rfl, rfl⟩ | ⟨rfl, rfl⟩ <;> simp [IsMovie, exTables]
  have c1 : CoActors exTables 1 5 6 := ⟨by decide, hm 1 5 ((exTables_acted _ _).2 (by simp)), (exTables_acted _ _).2 (by simp), (exTables_acted _ _).2 (by simp)⟩
  have c2 : CoActors exTables 2 6 7 := ⟨by decide, hm 2 6 ((exTables_acted _ _).2 (by simp)), (exTables_acted _ _).2 (by simp), (exTables_acted _ _).2 (by simp)⟩
  refine ⟨hm, fun k a h => ?_, ⟨1, 6, c1⟩, .link (.link .self c1) c2, fun n hn => ?_⟩
  · rw [exTables_acted] at h
    simp at h
    rcases h with ⟨rfl, rfl⟩ | ⟨rfl, rfl⟩ | ⟨rfl, rfl⟩ | ⟨rfl, rfl⟩ <;> simp [IsListed, exTables]
  · cases hn with
    | link hj hc =>
      cases hj with
      | self =>
        obtain ⟨-, -, h1, h2⟩ := hc
        rw [exTables_acted] at h1 h2
        simp at h1 h2
        omega
      | link _ _ => omega

/-- Two series, with one actor each. -/
def exSeries : Tables Nat Nat :=
  ⟨[(0, "titleType", "primaryTitle"), (1, "tvSeries", "A"), (2, "tvSeries", "B")], [(0, "primaryName"), (5, "K"), (6, "L")], [(0, 0, "category"), (1, 5, "actor"), (2, 6, "actress")]⟩

example : (∀ k a, Acted exSeries k a → IsListed exSeries a) ∧ exSeries.titles[0]? = some (0, "titleType", "primaryTitle") ∧ (∃ k, Acted exSeries k 5 ∧ ¬ IsMovie exSeries k) ∧
    (∃ k, Acted exSeries k 6 ∧ ¬ IsMovie exSeries k) ∧ ¬ ∃ k, CoActors exSeries k 5 6 := by
  have hm : ∀ k, ¬ IsMovie exSeries k := by
    rintro k ⟨x, hx⟩
    simp [exSeries] at hx
  refine ⟨fun k a h => ?_, rfl, ⟨1, ⟨"actor", by simp [exSeries], .inl rfl⟩, hm 1⟩, ⟨2, ⟨"actress", by simp [exSeries], .inr rfl⟩, hm 2⟩, fun ⟨k, h⟩ => hm k h.2.1⟩
  obtain ⟨c, hc, -⟩ := h
  simp [exSeries] at hc
  rcases hc with ⟨rfl, rfl, rfl⟩ | ⟨rfl, rfl, rfl⟩ <;> simp [IsListed, exSeries]

end NW.Imdb
