import Verif.Model.DagMis
import Verif.Spec.Independent
import Verif.Props.DagRange
import Verif.Props.Ranges
import Verif.Lemmas.ListRes

/-!
# C69: `dag_based_mis`
-/

namespace NW.DagMis
open Spec Ranges

theorem gives_ok {σ ρ : Type} {body : σ → Res (σ ⊕ ρ)} {s : σ} {r : ρ} (h : Loop body s (.ok r)) : Run.Gives (Run.loop body s) (· = r) :=
  ⟨⟨_, h⟩, fun _ ho => ⟨r, Loop.det ho h, rfl⟩⟩

/-! ## Building the lists -/

/-- The direction given to a stored edge. -/
def orient (g : Rows Unit) (v u : Nat) : Nat × Nat :=
  if storedDegree g v > storedDegree g u then (v, u) else if storedDegree g v < storedDegree g u then (u, v) else if v > u then (u, v) else (v, u)

theorem orient_cases (g : Rows Unit) (v u : Nat) (hne : v ≠ u) : (orient g v u = (v, u) ∧ Before g v u) ∨ (orient g v u = (u, v) ∧ Before g u v) := by
  unfold orient Before
  split
  · left; exact ⟨rfl, by omega⟩
  · split
    · right; exact ⟨rfl, by omega⟩
    · split
      · right; exact ⟨rfl, by omega⟩
      · left; exact ⟨rfl, by omega⟩

theorem pushAt_ok {l : List (List Nat)} {i x : Nat} (h : i < l.length) :
    ∃ l', pushAt l i x = .ok l' ∧ l'.length = l.length ∧ ∀ j, l'.getD j [] = if j = i then l.getD j [] ++ [x] else l.getD j [] := by
  refine ⟨l.set i (l[i] ++ [x]), ?_, by simp, ?_⟩
  · unfold pushAt
    rw [vget_of_lt h, res_bind_ok, vset_of_lt h]
  · intro j
    rw [List.getD_eq_getElem?_getD, List.getElem?_set]
    by_cases c : i = j
    · subst c
      rw [if_pos rfl, if_pos h, if_pos rfl, List.getD_eq_getElem?_getD, List.getElem?_eq_getElem h]; rfl
    · rw [if_neg c, if_neg (fun e => c e.symm), List.getD_eq_getElem?_getD]

/-- The lists hold the given edges. -/
structure Holds (n : Nat) (es : List (Nat × Nat)) (s : List (List Nat) × List (List Nat)) : Prop where
  len1 : s.1.length = n
  len2 : s.2.length = n
  pred : ∀ u w, (s.1.getD w []).count u = es.count (u, w)
  succ : ∀ u w, (s.2.getD u []).count w = es.count (u, w)

theorem Holds.push {n : Nat} {es : List (Nat × Nat)} {s : List (List Nat) × List (List Nat)} (h : Holds n es s) {a b : Nat} (ha : a < n) (hb : b < n) :
    ∃ p q, pushAt s.1 b a = .ok p ∧ pushAt s.2 a b = .ok q ∧ Holds n (es ++ [(a, b)]) (p, q) := by
  obtain ⟨p, p1, p2, p3⟩ := pushAt_ok (l := s.1) (i := b) (x := a) (by rw [h.len1]; exact hb)
  obtain ⟨q, q1, q2, q3⟩ := pushAt_ok (l := s.2) (i := a) (x := b) (by rw [h.len2]; exact ha)
  refine ⟨p, q, p1, q1, p2.trans h.len1, q2.trans h.len2, ?_, ?_⟩
  · intro u w
    simp only [p3]
    rw [List.count_append, List.count_singleton]
    split
    · rename_i e
      subst e
      rw [List.count_append, h.pred, List.count_singleton]
      by_cases c : a = u <;> simp [c]
    · rename_i e
      rw [h.pred, if_neg (by simp only [beq_iff_eq, Prod.mk.injEq]; exact fun x => e x.2.symm)]; rfl
  · intro u w
    simp only [q3]
    rw [List.count_append, List.count_singleton]
    split
    · rename_i e
      subst e
      rw [List.count_append, h.succ, List.count_singleton]
      by_cases c : b = w <;> simp [c]
    · rename_i e
      rw [h.succ, if_neg (by simp only [beq_iff_eq, Prod.mk.injEq]; exact fun x => e x.1.symm)]; rfl

theorem addEdge_ok (g : Rows Unit) {degrees : List Nat} (hd : ∀ v, v < g.length → degrees[v]? = some (storedDegree g v))
    {es : List (Nat × Nat)} {s : List (List Nat) × List (List Nat)} (h : Holds g.length es s) {v u : Nat} (hv : v < g.length) (hu : u < g.length) :
    ∃ s', addEdge degrees s (v, u, ()) = .ok s' ∧ Holds g.length (es ++ [orient g v u]) s' := by
  have e1 : vget degrees v = .ok (storedDegree g v) := by unfold vget; rw [hd v hv]
  have e2 : vget degrees u = .ok (storedDegree g u) := by unfold vget; rw [hd u hu]
  unfold addEdge orient
  simp only [e1, e2, res_bind_ok]
  obtain ⟨p, q, h1, h2, h3⟩ := h.push hv hu
  obtain ⟨p', q', h1', h2', h3'⟩ := h.push hu hv
  split
  · exact ⟨(p, q), by rw [h2, res_bind_ok, h1]; rfl, h3⟩
  · split
    · exact ⟨(p', q'), by rw [h1', res_bind_ok, h2']; rfl, h3'⟩
    · split
      · exact ⟨(p', q'), by rw [h1', res_bind_ok, h2']; rfl, h3'⟩
      · exact ⟨(p, q), by rw [h2, res_bind_ok, h1]; rfl, h3⟩

/-- The stored edges in their directions. -/
def oriented (g : Rows Unit) : List (Nat × Nat) := (rowEdges (fun u => g.getD u []) 0 g.length).map fun e => orient g e.1 e.2.1

theorem mem_rowEdges {g : Rows Unit} {e : Nat × Nat × Unit} (h : e ∈ rowEdges (fun u => g.getD u []) 0 g.length) : Edge g e.1 e.2.1 := by
  unfold rowEdges at h
  obtain ⟨u, hu, h⟩ := List.mem_flatMap.1 h
  obtain ⟨x, hx, rfl⟩ := List.mem_map.1 h
  exact List.mem_map_of_mem hx

theorem rowEdges_of {g : Rows Unit} {u v : Nat} (h : Edge g u v) : (u, v, ()) ∈ rowEdges (fun u => g.getD u []) 0 g.length := by
  unfold rowEdges
  refine List.mem_flatMap.2 ⟨u, List.mem_range'_1.2 ⟨by omega, by have := h.src_lt; omega⟩, ?_⟩
  obtain ⟨x, hx, rfl⟩ := List.mem_map.1 h
  exact List.mem_map.2 ⟨x, hx, rfl⟩

theorem mem_oriented (g : Rows Unit) (hloop : ∀ u, ¬ Edge g u u) (u w : Nat) : (u, w) ∈ oriented g ↔ Joined g u w ∧ Before g u w := by
  unfold oriented
  constructor
  · intro h
    obtain ⟨⟨a, b, c⟩, he, h⟩ := List.mem_map.1 h
    have he' := mem_rowEdges he
    simp only at he' h
    have hne : a ≠ b := fun e => hloop a (by rw [← e] at he'; exact he')
    rcases orient_cases g a b hne with ⟨e, hb⟩ | ⟨e, hb⟩
    · rw [e] at h; cases h; exact ⟨Or.inl he', hb⟩
    · rw [e] at h; cases h; exact ⟨Or.inr he', hb⟩
  · rintro ⟨hj, hb⟩
    have key : ∀ a b, Edge g a b → (a = u ∧ b = w ∨ a = w ∧ b = u) → (u, w) ∈ (rowEdges (fun u => g.getD u []) 0 g.length).map fun e => orient g e.1 e.2.1 := by
      intro a b he hab
      refine List.mem_map.2 ⟨(a, b, ()), rowEdges_of he, ?_⟩
      have hne : a ≠ b := fun e => hloop a (by rw [← e] at he; exact he)
      have hanti : ¬ (Before g a b ∧ Before g b a) := by unfold Before; omega
      rcases orient_cases g a b hne with ⟨e, hb'⟩ | ⟨e, hb'⟩ <;> rcases hab with ⟨rfl, rfl⟩ | ⟨rfl, rfl⟩
      · exact e
      · exact absurd ⟨hb', hb⟩ hanti
      · exact absurd ⟨hb, hb'⟩ hanti
      · exact e
    rcases hj with he | he
    · exact key u w he (Or.inl ⟨rfl, rfl⟩)
    · exact key w u he (Or.inr ⟨rfl, rfl⟩)

theorem Holds.arc {n : Nat} {es : List (Nat × Nat)} {s : List (List Nat) × List (List Nat)} (h : Holds n es s) (u w : Nat) : Arc s.2 u w ↔ (u, w) ∈ es := by
  unfold Arc
  rw [← List.count_pos_iff, ← List.count_pos_iff, h.succ]

theorem holds_dag (g : Rows Unit) (hg : InRange g) (hloop : ∀ u, ¬ Edge g u u) {s : List (List Nat) × List (List Nat)} (h : Holds g.length (oriented g) s) :
    Dag s.1 s.2 := by
  refine ⟨h.len1.trans h.len2.symm, ?_, fun u w => (h.pred u w).trans (h.succ u w).symm, ?_⟩
  · intro u w ha
    obtain ⟨hj, -⟩ := (mem_oriented g hloop u w).1 ((h.arc u w).1 ha)
    rw [h.len2]
    rcases hj with he | he
    · exact hg _ _ he
    · exact he.src_lt
  · have : ∀ u w, Relation.TransGen (Arc s.2) u w → Before g u w := by
      intro u w ht
      induction ht with
      | single ha => exact ((mem_oriented g hloop _ _).1 ((h.arc _ _).1 ha)).2
      | tail _ ha ih =>
        have hb := ((mem_oriented g hloop _ _).1 ((h.arc _ _).1 ha)).2
        unfold Before at *
        omega
    intro v hv
    have := this v v hv
    unfold Before at this
    omega

/-! ## The vector of the set -/

/-- Membership in the set described by a vector. -/
def In (r : List Bool) (v : Nat) : Prop := r[v]? = some true

instance (r : List Bool) (v : Nat) : Decidable (In r v) := inferInstanceAs (Decidable (_ = _))

theorem exclude_fold (n : Nat) : ∀ (L : List (Nat × Nat × Bool)) (m : List Bool), m.length = n → (∀ e ∈ L, e.1 < n ∧ e.2.1 < n ∧ e.1 ≠ e.2.1) →
    L.Pairwise (fun e f => f.2.1 ≠ e.1) →
    ∃ r, L.foldlM exclude m = .ok r ∧ r.length = n ∧ ∀ v, In r v ↔ In m v ∧ ∀ e ∈ L, e.2.1 = v → ¬ In r e.1 := by
  intro L
  induction L with
  | nil => intro m hm _ _; exact ⟨m, rfl, hm, by simp⟩
  | cons e L ih =>
    intro m hm hL hp
    obtain ⟨h1, h2, h3⟩ := hL e (by simp)
    rw [List.pairwise_cons] at hp
    obtain ⟨m', k1, k2, k3⟩ : ∃ m', exclude m e = .ok m' ∧ m'.length = n ∧ ∀ v, In m' v ↔ In m v ∧ (e.2.1 = v → ¬ In m e.1) := by
      unfold exclude
      rw [vget_of_lt (by omega : e.1 < m.length), res_bind_ok]
      by_cases c : m[e.1] = true
      · have hin : In m e.1 := by unfold In; rw [List.getElem?_eq_getElem (by omega), c]
        refine ⟨m.set e.2.1 false, by rw [if_pos c, vset_of_lt (by omega)], by simpa using hm, ?_⟩
        intro v
        unfold In at *
        rw [List.getElem?_set]
        by_cases d : e.2.1 = v
        · simp [d, hin]
        · simp [d]
      · have hin : ¬ In m e.1 := by unfold In; rw [List.getElem?_eq_getElem (by omega)]; simpa using c
        exact ⟨m, by rw [if_neg c]; rfl, hm, fun v => by simp [hin]⟩
    obtain ⟨r, r1, r2, r3⟩ := ih m' k2 (fun f hf => hL f (by simp [hf])) hp.2
    refine ⟨r, by rw [List.foldlM_cons, k1, res_bind_ok, r1], r2, ?_⟩
    have hsrc : In r e.1 ↔ In m e.1 := by
      rw [r3, k3]
      constructor
      · exact fun h => h.1.1
      · exact fun h => ⟨⟨h, fun e' => absurd e'.symm h3⟩, fun f hf e' => absurd e' (hp.1 f hf)⟩
    intro v
    rw [r3, k3]
    constructor
    · rintro ⟨⟨a, b⟩, c⟩
      refine ⟨a, ?_⟩
      intro f hf hfv
      rcases List.mem_cons.1 hf with rfl | hf
      · rw [hsrc]; exact b hfv
      · exact c f hf hfv
    · rintro ⟨a, b⟩
      exact ⟨⟨a, fun hv => by rw [← hsrc]; exact b e (by simp) hv⟩, fun f hf hfv => b f (by simp [hf]) hfv⟩

theorem addRoot_fold {pred : List (List Nat)} {n : Nat} (hp : pred.length = n) {m : List Bool} (hm : m.length = n) :
    ∃ r, (List.range n).foldlM (addRoot pred) m = .ok r ∧ r.length = n ∧ ∀ v, v < n → (In r v ↔ In m v ∨ pred.getD v [] = []) := by
  obtain ⟨r, h1, h2, h3⟩ := foldlM_range_inv (n := n) (f := addRoot pred) (s := m)
    (fun k r => r.length = n ∧ ∀ v, v < n → (In r v ↔ In m v ∨ (v < k ∧ pred.getD v [] = []))) ⟨hm, fun v _ => by simp⟩ (by
      rintro k hk r ⟨h1, h2⟩
      unfold addRoot
      have hg : pred.getD k [] = pred[k]'(by omega) := by rw [List.getD_eq_getElem?_getD, List.getElem?_eq_getElem (by omega)]; rfl
      rw [vget_of_lt (by omega : k < pred.length), res_bind_ok]
      by_cases c : (pred[k]'(by omega)).length = 0
      · rw [if_pos c, vset_of_lt (by omega)]
        refine ⟨_, rfl, by simpa using h1, ?_⟩
        intro v hv
        by_cases d : k = v
        · subst d
          have : pred.getD k [] = [] := by rw [hg]; exact List.length_eq_zero_iff.1 c
          simp only [this, and_true]
          unfold In
          rw [List.getElem?_set_self (by omega)]
          simp
        · have : In (r.set k true) v ↔ In r v := by unfold In; rw [List.getElem?_set_ne d]
          rw [this, h2 v hv]
          have : v < k + 1 ↔ v < k := by omega
          rw [this]
      · rw [if_neg c]
        refine ⟨r, rfl, h1, ?_⟩
        intro v hv
        rw [h2 v hv]
        by_cases d : k = v
        · subst d
          have : pred.getD k [] ≠ [] := by rw [hg]; intro e; rw [e] at c; exact c rfl
          simp only [this, and_false]
        · have : v < k + 1 ↔ v < k := by omega
          rw [this])
  exact ⟨r, h1, h2, fun v hv => by rw [h3 v hv]; simp [hv]⟩

theorem degrees_ok (g : Rows Unit) : ∃ d, ((List.range g.length).map fun u => (u, (g.getD u []).length)).foldlM storeDegree (List.replicate g.length 0) = .ok d ∧
    ∀ v, v < g.length → d[v]? = some (storedDegree g v) := by
  rw [List.foldlM_map]
  obtain ⟨d, h1, h2, h3⟩ := foldlM_range_inv (n := g.length) (f := fun d u => storeDegree d (u, (g.getD u []).length)) (s := List.replicate g.length 0)
    (fun k d => d.length = g.length ∧ ∀ v, v < k → d[v]? = some (storedDegree g v)) ⟨by simp, by omega⟩ (by
      rintro k hk d ⟨h1, h2⟩
      refine ⟨d.set k (g.getD k []).length, by unfold storeDegree; rw [vset_of_lt (by simp only; omega)], by simpa using h1, ?_⟩
      intro v hv
      rw [List.getElem?_set]
      split
      · rename_i e
        subst e
        rw [if_pos (by omega)]
        unfold storedDegree nbrs
        rw [List.length_map]
      · exact h2 v (by omega))
  exact ⟨d, h1, h3⟩

/-- C69.  On a graph without loops, whatever the vector holds before: afterwards a vertex is in the set exactly if it was marked before or no neighbour comes before
it (in the order of falling degree, then of number), and no neighbour that comes before it is in the set.  This determines the vector. -/
theorem dag_based_mis_greedy (g : Rows Unit) (hne : g ≠ []) (hg : InRange g) (hloop : ∀ u, ¬ Edge g u u) (ready0 : Bool) (mis : List Bool)
    (hm : mis.length = g.length) :
    Run.Gives (dagMis g ready0 mis) fun r => r.length = g.length ∧
      ∀ v, v < g.length → (r[v]? = some true ↔
        (mis[v]? = some true ∨ ∀ u, Joined g u v → ¬ Before g u v) ∧ ∀ u, Joined g u v → Before g u v → r[u]? = some false) := by
  have hrow : ∀ u, 0 ≤ u → u < g.length → vget g u = .ok (g.getD u []) := by
    intro u _ hu
    rw [vget_of_lt hu, List.getD_eq_getElem?_getD, List.getElem?_eq_getElem hu]; rfl
  have hlen : 0 < g.length := by cases g with | nil => exact absurd rfl hne | cons => simp
  unfold dagMis
  refine (gives_ok (plain_degree_range_visits (vget g) (fun u => g.getD u []) g.length fun u hu => hrow u (by omega) hu)).bind ?_
  rintro ds rfl
  obtain ⟨degrees, d1, d2⟩ := degrees_ok g
  refine (Run.gives_lift (Q := (· = degrees)) d1 rfl).bind ?_
  rintro _ rfl
  rename_i degrees
  have hv := edge_range_enumerates (vget g) (fun u => g.getD u []) 0 g.length (by omega) hrow
  unfold EdgeRangeVisits at hv
  cases hp : edgeStart (vget g) 0 g.length with
  | error f => rw [hp] at hv; cases hv
  | ok p =>
  rw [hp] at hv
  refine (Run.gives_lift (Q := (· = p)) rfl rfl).bind ?_
  rintro _ rfl
  refine (gives_ok hv).bind ?_
  rintro es rfl
  obtain ⟨s, s1, s2⟩ := foldlM_list_inv (l := rowEdges (fun u => g.getD u []) 0 g.length) (f := addEdge degrees)
    (s := (List.replicate g.length [], List.replicate g.length []))
    (fun pre s => Holds g.length (pre.map fun e => orient g e.1 e.2.1) s)
    ⟨by simp, by simp, fun u w => by
      rw [List.getD_eq_getElem?_getD, List.getElem?_replicate]; split <;> simp, fun u w => by
      rw [List.getD_eq_getElem?_getD, List.getElem?_replicate]; split <;> simp⟩ (by
      rintro pre ⟨v, u, ⟨⟩⟩ post hl s hs
      have he : Edge g v u := mem_rowEdges (e := (v, u, ())) (by rw [hl]; simp)
      obtain ⟨s', k1, k2⟩ := addEdge_ok g d2 hs he.src_lt (hg _ _ he)
      exact ⟨s', k1, by rw [List.map_append]; exact k2⟩)
  refine (Run.gives_lift (Q := (· = s)) s1 rfl).bind ?_
  rintro _ rfl
  rename_i s
  change Holds g.length (oriented g) s at s2
  have hdag := holds_dag g hg hloop s2
  obtain ⟨m, m1, m2, m3⟩ := addRoot_fold (pred := s.1) s2.len1 hm
  refine (Run.gives_lift (Q := (· = m)) m1 rfl).bind ?_
  rintro _ rfl
  rename_i m
  obtain ⟨st, out, o1, o2, o3, o4, -⟩ := DagRange.dag_range_topological_partial hdag (by rw [s2.len2]; exact hlen) ready0
  rw [s2.len2] at o1
  refine (Run.gives_lift (Q := (· = st)) o1 rfl).bind ?_
  rintro _ rfl
  refine (gives_ok o2).bind ?_
  rintro _ rfl
  rename_i out
  -- the delivered edges
  have hmem : ∀ u w, (∃ r, (u, w, r) ∈ out) ↔ Joined g u w ∧ Before g u w := by
    intro u w
    rw [← mem_oriented g hloop, ← s2.arc]
    have e1 : (∃ r, (u, w, r) ∈ out) ↔ (u, w) ∈ out.map fun e => (e.1, e.2.1) := by
      constructor
      · rintro ⟨r, h⟩; exact List.mem_map.2 ⟨_, h, rfl⟩
      · intro h
        obtain ⟨⟨a, b, r⟩, h1, h2⟩ := List.mem_map.1 h
        cases h2
        exact ⟨r, h1⟩
    rw [e1, o3.mem_iff]
    unfold arcs Arc
    constructor
    · intro h
      obtain ⟨a, ha, h⟩ := List.mem_flatMap.1 h
      obtain ⟨b, hb, h⟩ := List.mem_map.1 h
      cases h
      exact hb
    · intro h
      refine List.mem_flatMap.2 ⟨u, List.mem_range.2 ?_, List.mem_map.2 ⟨w, h, rfl⟩⟩
      by_contra c
      rw [List.getD_eq_getElem?_getD, List.getElem?_eq_none (by omega)] at h
      cases h
  obtain ⟨r, r1, r2, r3⟩ := exclude_fold g.length out m m2 (by
      rintro ⟨u, w, b⟩ he
      obtain ⟨hj, hb⟩ := (hmem u w).1 ⟨b, he⟩
      refine ⟨?_, ?_, ?_⟩
      · rcases hj with h | h
        · exact h.src_lt
        · exact hg _ _ h
      · rcases hj with h | h
        · exact hg _ _ h
        · exact h.src_lt
      · simp only; rintro rfl; unfold Before at hb; omega) (by
      rw [List.pairwise_iff_getElem]
      intro i j hi hj hij e
      have h1 : out[i]? = some (out[i].1, out[i].2.1, out[i].2.2) := List.getElem?_eq_getElem hi
      have h2 : out[j]? = some (out[j].1, out[j].2.1, out[j].2.2) := List.getElem?_eq_getElem hj
      have := o4 j i _ _ _ _ _ h2 (by rw [h1, e])
      omega)
  refine Run.gives_lift r1 ⟨r2, ?_⟩
  intro v hv
  have hr3 := r3 v
  unfold In at hr3
  rw [hr3]
  have hroot : m[v]? = some true ↔ (mis[v]? = some true ∨ ∀ u, Joined g u v → ¬ Before g u v) := by
    have := m3 v hv
    unfold In at this
    rw [this]
    refine or_congr_right ?_
    rw [List.eq_nil_iff_forall_not_mem]
    refine forall_congr' fun u => ?_
    rw [← List.count_pos_iff, s2.pred, List.count_pos_iff]
    rw [mem_oriented g hloop u v]
    tauto
  rw [hroot]
  refine and_congr_right fun _ => ?_
  constructor
  · intro h u hj hb
    obtain ⟨b, hb'⟩ := (hmem u v).2 ⟨hj, hb⟩
    have hno := h _ hb' rfl
    have hu : u < r.length := by
      rw [r2]
      rcases hj with h | h
      · exact h.src_lt
      · exact hg _ _ h
    simp only at hno
    rw [List.getElem?_eq_getElem hu] at hno ⊢
    cases hc : r[u] with
    | false => rfl
    | true => rw [hc] at hno; exact absurd rfl hno
  · rintro h ⟨u, w, b⟩ he rfl
    obtain ⟨hj, hb⟩ := (hmem u w).1 ⟨b, he⟩
    simp only
    rw [h u hj hb]
    simp

/-- C69.  Whatever the vector holds before, no two vertices of the result are joined. -/
theorem dag_based_mis_independent (g : Rows Unit) (hne : g ≠ []) (hg : InRange g) (hloop : ∀ u, ¬ Edge g u u) (ready0 : Bool) (mis : List Bool)
    (hm : mis.length = g.length) :
    Run.Gives (dagMis g ready0 mis) fun r => r.length = g.length ∧ Independent g fun v => r[v]? = some true := by
  refine (dag_based_mis_greedy g hne hg hloop ready0 mis hm).mono ?_
  rintro r ⟨h1, h2⟩
  refine ⟨h1, ?_⟩
  have key : ∀ u v, r[u]? = some true → r[v]? = some true → Joined g u v → Before g u v → False := by
    intro u v hu hv hj hb
    have hl := (List.getElem?_eq_some_iff.1 hv).1
    have := ((h2 v (by omega)).1 hv).2 u hj hb
    rw [hu] at this
    cases this
  intro u v hu hv hj
  by_cases c : Before g u v
  · exact key u v hu hv hj c
  · refine key v u hv hu hj.symm ?_
    have : u ≠ v := by rintro rfl; rcases hj with h | h <;> exact hloop u h
    unfold Before at *
    omega

/-- C69, the part that holds: called with every vertex marked, as the test does, `dag_based_mis` leaves a maximal independent set of a loop-free graph with at least
one vertex, whether an edge is stored once or in both directions.  Missing: other initial vectors (`dag_based_mis_only_roots`), loops and the empty graph
(`dag_based_mis_loop`, `dag_based_mis_empty`). -/
theorem dag_based_mis_partial (g : Rows Unit) (hne : g ≠ []) (hg : InRange g) (hloop : ∀ u, ¬ Edge g u u) (ready0 : Bool) :
    Run.Gives (dagMis g ready0 (List.replicate g.length true)) fun r => r.length = g.length ∧
      (Independent g fun v => r[v]? = some true) ∧ Dominating g fun v => r[v]? = some true := by
  obtain ⟨⟨o, ho⟩, h⟩ := dag_based_mis_greedy g hne hg hloop ready0 (List.replicate g.length true) (by simp)
  refine ⟨⟨o, ho⟩, ?_⟩
  intro o ho
  obtain ⟨r, rfl, h1, h2⟩ := h o ho
  obtain ⟨r', e, -, h3⟩ := (dag_based_mis_independent g hne hg hloop ready0 (List.replicate g.length true) (by simp)).2 _ ho
  cases e
  refine ⟨r, rfl, h1, h3, ?_⟩
  intro v hv hn
  by_contra c
  refine hn ((h2 v hv).2 ⟨Or.inl (by rw [List.getElem?_replicate, if_pos hv]), ?_⟩)
  intro u hj _
  have hu : u < r.length := by
    rw [h1]
    rcases hj with h | h
    · exact h.src_lt
    · exact hg _ _ h
  cases hc : r[u] with
  | false => rw [List.getElem?_eq_getElem hu, hc]
  | true => exact absurd ⟨u, by show r[u]? = some true; rw [List.getElem?_eq_getElem hu, hc], hj⟩ c

/-- C69, the defect: the vector is documented as an output, but a vertex that is not marked before is only marked if no neighbour comes before it. -/
theorem dag_based_mis_only_roots (g : Rows Unit) (hne : g ≠ []) (hg : InRange g) (hloop : ∀ u, ¬ Edge g u u) (ready0 : Bool) :
    Run.Gives (dagMis g ready0 (List.replicate g.length false)) fun r =>
      ∀ v, v < g.length → (r[v]? = some true ↔ ∀ u, Joined g u v → ¬ Before g u v) := by
  refine (dag_based_mis_greedy g hne hg hloop ready0 _ (by simp)).mono ?_
  rintro r ⟨h1, h2⟩ v hv
  rw [h2 v hv, List.getElem?_replicate, if_pos hv]
  constructor
  · rintro ⟨h | h, -⟩
    · cases h
    · exact h
  · exact fun h => ⟨Or.inr h, fun u hj hb => absurd hb (h u hj)⟩

/-- The path 0 - 1 - 2 - 3. -/
def exPath : Rows Unit := [[(1, ())], [(0, ()), (2, ())], [(1, ()), (3, ())], [(2, ())]]

theorem exPath_inRange : InRange exPath := by decide

theorem exPath_loopless : ∀ u, ¬ Edge exPath u u := fun u he => by
  have hd : ∀ u < exPath.length, u ∉ nbrs exPath u := by decide
  exact hd u he.src_lt he

/-- C69, the defect on a path of four vertices: from a cleared vector only vertex 1 is returned, although 3 is not joined to it. -/
theorem dag_based_mis_not_maximal : Run.Gives (dagMis exPath false (List.replicate 4 false)) fun r => r = [false, true, false, false] ∧ ¬ Dominating exPath fun v => r[v]? = some true := by
  refine (((dag_based_mis_only_roots exPath (by decide) exPath_inRange exPath_loopless false).1.elim fun o ho => ⟨⟨o, ho⟩, ?_⟩) : Run.Gives _ _)
  intro o ho
  obtain ⟨r, rfl, h⟩ := (dag_based_mis_only_roots exPath (by decide) exPath_inRange exPath_loopless false).2 o ho
  obtain ⟨r', e, hl, -⟩ := (dag_based_mis_greedy exPath (by decide) exPath_inRange exPath_loopless false _ (by decide)).2 _ ho
  cases e
  refine ⟨r, rfl, ?_⟩
  have b : ∀ v < 4, ((∀ u, Joined exPath u v → ¬ Before exPath u v) ↔ v = 1) := by
    intro v hv
    have d : ∀ v < 4, ((∀ u < 4, Joined exPath u v → ¬ Before exPath u v) ↔ v = 1) := by decide
    rw [← d v hv]
    constructor
    · exact fun h u _ => h u
    · intro h u hj
      refine h u ?_ hj
      rcases hj with h | h
      · exact h.src_lt
      · exact exPath_inRange _ _ h
  have hr : r = [false, true, false, false] := by
    have g : ∀ v, v < 4 → (r[v]? = some true ↔ v = 1) := fun v hv => (h v hv).trans (b v hv)
    have h0 := g 0 (by omega); have h1 := g 1 (by omega); have h2 := g 2 (by omega); have h3 := g 3 (by omega)
    match r, hl with
    | [x0, x1, x2, x3], _ =>
      simp at h0 h1 h2 h3
      rw [h0, h1, h2, h3]
  refine ⟨hr, ?_⟩
  subst hr
  intro hd
  obtain ⟨u, hu, hj⟩ := hd 3 (by decide) (by decide)
  have : u = 1 := by
    rcases u with _ | _ | _ | _ | u <;> simp at hu ⊢
  subst this
  exact absurd hj (by decide)

/-- Non-vacuity of `dag_based_mis_partial`: the same path with every vertex marked. -/
example : Run.Gives (dagMis exPath false (List.replicate exPath.length true)) fun r => r.length = 4 ∧
    (Independent exPath fun v => r[v]? = some true) ∧ Dominating exPath fun v => r[v]? = some true :=
  dag_based_mis_partial exPath (by decide) exPath_inRange exPath_loopless false

/-- C69, the defect: with no vertex at all, the front of an empty queue is read. -/
theorem dag_based_mis_empty (ready0 : Bool) : Run.Faults (dagMis [] ready0 []) .emptyContainer := by
  unfold dagMis
  refine (gives_ok (Loop.done rfl)).bind_faults ?_
  rintro _ rfl
  refine (Run.gives_lift (Q := (· = [])) rfl rfl).bind_faults ?_
  rintro _ rfl
  refine (Run.gives_lift (Q := (· = ⟨0, []⟩)) rfl rfl).bind_faults ?_
  rintro _ rfl
  refine (gives_ok (Loop.done rfl)).bind_faults ?_
  rintro _ rfl
  refine (Run.gives_lift (Q := (· = ([], []))) rfl rfl).bind_faults ?_
  rintro _ rfl
  refine (Run.gives_lift (Q := (· = [])) rfl rfl).bind_faults ?_
  rintro _ rfl
  exact (Run.faults_lift rfl).bind

/-- C69, the defect: a loop makes its vertex wait for itself; if no vertex is left to start from, the front of an empty queue is read. -/
theorem dag_based_mis_loop (ready0 b : Bool) : Run.Faults (dagMis [[(0, ())]] ready0 [b]) .emptyContainer := by
  unfold dagMis
  refine (gives_ok (r := [(0, 1)]) (Loop.of_runFuel (n := 3) rfl)).bind_faults ?_
  rintro _ rfl
  refine (Run.gives_lift (Q := (· = [1])) rfl rfl).bind_faults ?_
  rintro _ rfl
  refine (Run.gives_lift (Q := (· = ⟨0, [(0, ())]⟩)) (by decide +kernel) rfl).bind_faults ?_
  rintro _ rfl
  refine (gives_ok (r := [(0, 0, ())]) (Loop.of_runFuel (n := 3) (by decide +kernel))).bind_faults ?_
  rintro _ rfl
  refine (Run.gives_lift (Q := (· = ([[0]], [[0]]))) rfl rfl).bind_faults ?_
  rintro _ rfl
  refine (Run.gives_lift (Q := (· = [b])) rfl rfl).bind_faults ?_
  rintro _ rfl
  exact (Run.faults_lift rfl).bind

end NW.DagMis
