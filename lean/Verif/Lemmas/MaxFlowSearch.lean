import Verif.Lemmas.MaxFlow

/-!
# The search for an augmenting path
-/

namespace NW.MaxFlow
open Spec BackEdge

variable {R : Type} [CommRing R] [LinearOrder R] [IsStrictOrderedRing R]
variable {g0 : Rows (R × R)} {s : Net R}

omit [LinearOrder R] [IsStrictOrderedRing R] in
theorem place_inj (h : Good g0 s) (hg : InRange g0) {v u w : Nat} (hu : Adj g0 v u) (hw : Adj g0 v w) (e : place g0 v u = place g0 v w) : u = w := by
  have h1 := read_place h hg hu
  rw [e, read_place h hg hw] at h1
  cases h1; rfl

omit [IsStrictOrderedRing R] in
theorem adj_of_r (h : Good g0 s) {v u : Nat} (hr : 0 < r s v u) : Adj g0 v u := by
  by_contra hn
  unfold Adj at hn
  push Not at hn
  unfold r C F at hr
  have n1 : ¬ Edge s.g v u := fun h' => hn.1 ((h.edge v u).1 h')
  have n2 : ¬ Edge s.g u v := fun h' => hn.2 ((h.edge u v).1 h')
  rw [arc_of_not_edge _ n1, arc_of_not_edge _ n1, arc_of_not_edge _ n2] at hr
  simp at hr

/-- The colours: the discovered vertices are not white. -/
def Cols (n : Nat) (col : List Color) (D : List Nat) : Prop := col.length = n ∧ ∀ x, x < n → (col[x]? = some .white ↔ x ∉ D)

theorem skip_ok (h : Good g0 s) (hg : InRange g0) (hs : Simple g0) {col : List Color} {D : List Nat} (hc : Cols g0.length col D) (v : Nat) (ls : List Loc)
    (hls : ∀ l ∈ ls, ∃ u, Adj g0 v u ∧ l = place g0 v u) :
    ∃ pre rest, ls = pre ++ rest ∧ skip col v s ls = .ok (s, rest) ∧ (∀ u, Adj g0 v u → place g0 v u ∈ pre → u ∉ D → ¬ 0 < r s v u) ∧
      ∀ l rs, rest = l :: rs → ∃ u, Adj g0 v u ∧ l = place g0 v u ∧ u ∉ D ∧ 0 < r s v u := by
  induction ls with
  | nil => exact ⟨[], [], rfl, rfl, by simp, by simp⟩
  | cons l ls ih =>
    obtain ⟨u, ha, rfl⟩ := hls l (by simp)
    obtain ⟨pre, rest, e1, e2, e3, e4⟩ := ih fun l hl => hls l (List.mem_cons_of_mem _ hl)
    have hu := (ha.lt hg).2
    unfold skip
    rw [read_place h hg ha, res_bind_ok]
    dsimp only
    rw [vget_of_lt (by rw [hc.1]; exact hu), res_bind_ok]
    have hw : col[u]'(by rw [hc.1]; exact hu) = .white ↔ u ∉ D := by
      rw [← hc.2 u hu, List.getElem?_eq_getElem (by rw [hc.1]; exact hu)]; simp
    have key : (u ∉ D → ¬ 0 < r s v u) → ∃ pre rest, place g0 v u :: ls = pre ++ rest ∧ skip col v s ls = .ok (s, rest) ∧
        (∀ u, Adj g0 v u → place g0 v u ∈ pre → u ∉ D → ¬ 0 < r s v u) ∧ ∀ l rs, rest = l :: rs → ∃ u, Adj g0 v u ∧ l = place g0 v u ∧ u ∉ D ∧ 0 < r s v u := by
      intro hno
      refine ⟨place g0 v u :: pre, rest, by rw [e1]; rfl, e2, ?_, e4⟩
      intro w hw hp
      rcases List.mem_cons.1 hp with hp | hp
      · have := place_inj h hg hw ha hp
        subst this; exact hno
      · exact e3 w hw hp
    by_cases c : col[u]'(by rw [hc.1]; exact hu) = .white
    · rw [if_pos c, filter_place h hg hs ha, res_bind_ok]
      dsimp only
      by_cases c2 : r s v u ≤ 0
      · rw [if_neg (by simpa using c2)]
        exact key fun _ => not_lt.2 c2
      · rw [if_pos (by simpa using c2)]
        refine ⟨[], place g0 v u :: ls, rfl, rfl, by simp, ?_⟩
        rintro l rs ⟨⟩
        exact ⟨u, ha, rfl, hw.1 c, not_le.1 c2⟩
    · rw [if_neg c]
      exact key fun hn => absurd (hw.2 hn) c

theorem skip0_ok (h : Good g0 s) (hg : InRange g0) (hs : Simple g0) (v : Nat) (ls : List Loc) (hne : ls ≠ []) (hls : ∀ l ∈ ls, ∃ u, Adj g0 v u ∧ l = place g0 v u) :
    ∃ pre rest, ls = pre ++ rest ∧ skip0 v s ls = .ok (s, rest, decide (rest = [])) ∧ (∀ u, Adj g0 v u → place g0 v u ∈ pre → ¬ 0 < r s v u) ∧
      ∀ l rs, rest = l :: rs → ∃ u, Adj g0 v u ∧ l = place g0 v u ∧ 0 < r s v u := by
  induction ls with
  | nil => exact absurd rfl hne
  | cons l ls ih =>
    obtain ⟨u, ha, rfl⟩ := hls l (by simp)
    unfold skip0
    rw [filter_place h hg hs ha, res_bind_ok]
    dsimp only
    by_cases c2 : r s v u ≤ 0
    · rw [if_pos (by simpa using c2)]
      cases ls with
      | nil =>
        refine ⟨[place g0 v u], [], rfl, rfl, ?_, by simp⟩
        intro w hw hp
        rw [List.mem_singleton] at hp
        have := place_inj h hg hw ha hp
        subst this; exact not_lt.2 c2
      | cons l' ls' =>
        obtain ⟨pre, rest, e1, e2, e3, e4⟩ := ih (by simp) fun l hl => hls l (List.mem_cons_of_mem _ hl)
        refine ⟨place g0 v u :: pre, rest, by rw [e1]; rfl, e2, ?_, e4⟩
        intro w hw hp
        rcases List.mem_cons.1 hp with hp | hp
        · have := place_inj h hg hw ha hp
          subst this; exact not_lt.2 c2
        · exact e3 w hw hp
    · rw [if_neg (by simpa using c2)]
      refine ⟨[], place g0 v u :: ls, rfl, rfl, by simp, ?_⟩
      rintro l rs ⟨⟩
      exact ⟨u, ha, rfl, not_le.1 c2⟩

/-- No residual capacity leads from `P` out of `D`. -/
def Closed (s : Net R) (D P : List Nat) : Prop := ∀ p ∈ P, ∀ u, 0 < r s p u → u ∈ D

/-- The search stands at an edge to a new vertex. -/
structure Front (g0 : Rows (R × R)) (s : Net R) (D : List Nat) (f : Fb) : Prop where
  queue : ∃ P q', f.q = f.v :: q' ∧ D = P ++ f.q ∧ Closed s D P
  grey : ∀ x ∈ f.q, f.col[x]? = some .grey
  head : ∃ u rs, f.rest = place g0 f.v u :: rs ∧ Adj g0 f.v u ∧ u ∉ D ∧ 0 < r s f.v u
  places : ∀ l ∈ f.rest, ∃ w, Adj g0 f.v w ∧ l = place g0 f.v w
  all : ∀ w, 0 < r s f.v w → w ∉ D → place g0 f.v w ∈ f.rest

theorem cols_set {n : Nat} {col : List Color} {D : List Nat} (hc : Cols n col D) {x : Nat} (hx : x ∈ D) (c : Color) (hcw : c ≠ .white) : Cols n (col.set x c) D := by
  refine ⟨by rw [List.length_set]; exact hc.1, fun y hy => ?_⟩
  by_cases e : x = y
  · subst e
    rw [List.getElem?_set_self (by rw [hc.1]; exact hy)]
    simp [hcw, hx]
  · rw [List.getElem?_set_ne e]; exact hc.2 y hy

theorem cols_add {n : Nat} {col : List Color} {D : List Nat} (hc : Cols n col D) (x : Nat) : Cols n (col.set x .grey) (D ++ [x]) := by
  refine ⟨by rw [List.length_set]; exact hc.1, fun y hy => ?_⟩
  by_cases e : x = y
  · subst e
    rw [List.getElem?_set_self (by rw [hc.1]; exact hy)]
    simp
  · rw [List.getElem?_set_ne e, hc.2 y hy]
    simp [Ne.symm e]

theorem nextVertex_ok (h : Good g0 s) (hg : InRange g0) (hs : Simple g0) {D : List Nat} (hnd : D.Nodup) (hlt : ∀ x ∈ D, x < g0.length) (q' : List Nat) :
    ∀ (col : List Color) (v : Nat) (P : List Nat), Cols g0.length col D → D = P ++ v :: q' → (∀ x ∈ q', col[x]? = some .grey) → Closed s D (P ++ [v]) →
      ∃ f', nextVertex s col v (v :: q') = .ok (s, f') ∧ Cols g0.length f'.col D ∧ ((f'.unreach = true ∧ Closed s D D) ∨ (f'.unreach = false ∧ Front g0 s D f')) := by
  induction q' with
  | nil =>
    intro col v P hc hD hgrey hcl
    have hvD : v ∈ D := by rw [hD]; simp
    unfold nextVertex
    rw [vset_of_lt (by rw [hc.1]; exact hlt v hvD), res_bind_ok]
    exact ⟨_, rfl, cols_set hc hvD _ (by decide), Or.inl ⟨rfl, by rw [← hD] at hcl; exact hcl⟩⟩
  | cons v' q' ih =>
    intro col v P hc hD hgrey hcl
    have hvD : v ∈ D := by rw [hD]; simp
    have hvD' : v' ∈ D := by rw [hD]; simp
    have hv' := hlt v' hvD'
    have hnot : v ∉ v' :: q' := by
      rw [hD] at hnd
      exact (List.nodup_cons.1 (List.nodup_append.1 hnd).2.1).1
    have hg1 : ∀ x ∈ v' :: q', (col.set v .black)[x]? = some .grey := by
      intro x hx
      rw [List.getElem?_set_ne (by rintro rfl; exact hnot hx)]
      exact hgrey x hx
    have hc' := cols_set hc hvD .black (by decide)
    unfold nextVertex
    rw [vset_of_lt (by rw [hc.1]; exact hlt v hvD), res_bind_ok]
    dsimp only
    rw [vget_eq_ok.2 (hg1 v' (by simp)), res_bind_ok]
    simp only [decide_true, check, if_true, res_bind_ok]
    obtain ⟨ls, l1, l2, l3⟩ := inner_ok h hs hv'
    obtain ⟨pre, rest, e1, e2, e3, e4⟩ := skip_ok h hg hs hc' v' ls l2
    rw [l1, res_bind_ok, e2, res_bind_ok]
    have hD' : D = (P ++ [v]) ++ v' :: q' := by rw [hD]; simp
    cases rest with
    | nil =>
      refine ih (col.set v .black) v' (P ++ [v]) hc' hD' (fun x hx => hg1 x (List.mem_cons_of_mem _ hx)) ?_
      intro p hp u hr
      rcases List.mem_append.1 hp with hp | hp
      · exact hcl p hp u hr
      · rw [List.mem_singleton] at hp
        subst hp
        by_contra hn
        have ha := adj_of_r h hr
        have hm := l3 u ha
        rw [e1, List.append_nil] at hm
        exact e3 u ha hm hn hr
    | cons l rs =>
      refine ⟨_, rfl, hc', Or.inr ⟨rfl, ?_⟩⟩
      obtain ⟨u, ha, rfl, hu, hr⟩ := e4 l rs rfl
      refine ⟨⟨P ++ [v], q', rfl, hD', hcl⟩, hg1, ⟨u, rs, rfl, ha, hu, hr⟩, ?_, ?_⟩
      · intro l hl
        exact l2 l (by rw [e1]; exact List.mem_append_right _ hl)
      · intro w hr hw
        have ha := adj_of_r h hr
        have hm := l3 w ha
        rw [e1] at hm
        rcases List.mem_append.1 hm with hm | hm
        · exact absurd hr (e3 w ha hm hw)
        · exact hm

theorem advance_ok (h : Good g0 s) (hg : InRange g0) (hs : Simple g0) {D : List Nat} (hnd : D.Nodup) (hlt : ∀ x ∈ D, x < g0.length) {f : Fb} (hc : Cols g0.length f.col D)
    (hf : Front g0 s D f) (hun : f.unreach = false) (sink : Nat) {u : Nat} {rs : List Loc} (hrest : f.rest = place g0 f.v u :: rs) (ha : Adj g0 f.v u) (hu : u ∉ D) :
    ∃ f', advance sink s f = .ok (s, f') ∧ Cols g0.length f'.col (D ++ [u]) ∧ ((u = sink ∧ f'.col[sink]? = some .grey) ∨
      (u ≠ sink ∧ ((f'.unreach = true ∧ Closed s (D ++ [u]) (D ++ [u])) ∨ (f'.unreach = false ∧ Front g0 s (D ++ [u]) f')))) := by
  have hul := (ha.lt hg).2
  have hc1 := cols_add hc u
  unfold advance
  rw [hrest]
  dsimp only
  rw [read_place h hg ha, res_bind_ok]
  dsimp only
  rw [vset_of_lt (by rw [hc.1]; exact hul), res_bind_ok]
  by_cases cs : sink = u
  · rw [if_pos cs]
    rw [vset_of_lt (by rw [List.length_set, hc.1]; exact hul), res_bind_ok]
    refine ⟨_, rfl, ?_, Or.inl ⟨cs.symm, ?_⟩⟩
    · exact cols_set hc1 (by simp) _ (by decide)
    · simp only
      rw [cs, List.getElem?_set_self (by rw [List.length_set, hc.1]; exact hul)]
  · rw [if_neg cs]
    have hpl : ∀ l ∈ rs, ∃ w, Adj g0 f.v w ∧ l = place g0 f.v w := fun l hl => hf.places l (by rw [hrest]; exact List.mem_cons_of_mem _ hl)
    obtain ⟨pre, rest, e1, e2, e3, e4⟩ := skip_ok h hg hs hc1 f.v rs hpl
    rw [e2, res_bind_ok]
    obtain ⟨P, q', hq, hD, hcl⟩ := hf.queue
    have hgrey : ∀ x ∈ f.q ++ [u], (f.col.set u .grey)[x]? = some .grey := by
      intro x hx
      by_cases e : u = x
      · subst e
        rw [List.getElem?_set_self (by rw [hc.1]; exact hul)]
      · rw [List.getElem?_set_ne e]
        rcases List.mem_append.1 hx with hx | hx
        · exact hf.grey x hx
        · exact absurd (List.mem_singleton.1 hx).symm e
    have hall : ∀ w, 0 < r s f.v w → w ∉ D ++ [u] → place g0 f.v w ∈ rs := by
      intro w hr hw
      have hw1 : w ∉ D := fun h' => hw (List.mem_append_left _ h')
      have hw2 : w ≠ u := fun h' => hw (by simp [h'])
      have := hf.all w hr hw1
      rw [hrest] at this
      rcases List.mem_cons.1 this with hm | hm
      · exact absurd (place_inj h hg (adj_of_r h hr) ha hm) hw2
      · exact hm
    have hnd' : (D ++ [u]).Nodup := by
      rw [List.nodup_append]
      exact ⟨hnd, by simp, by simp; exact fun a ha' e => hu (e ▸ ha')⟩
    have hlt' : ∀ x ∈ D ++ [u], x < g0.length := by
      intro x hx
      rcases List.mem_append.1 hx with hx | hx
      · exact hlt x hx
      · rw [List.mem_singleton] at hx; rw [hx]; exact hul
    have hcl' : Closed s (D ++ [u]) P := fun p hp w hr => List.mem_append_left _ (hcl p hp w hr)
    cases rest with
    | nil =>
      rw [List.append_nil] at e1
      subst e1
      dsimp only
      rw [hq, List.cons_append]
      have hD' : D ++ [u] = P ++ f.v :: (q' ++ [u]) := by rw [hD, hq]; simp
      obtain ⟨f', h1, h2, h3⟩ := nextVertex_ok h hg hs hnd' hlt' (q' ++ [u]) (f.col.set u .grey) f.v P hc1 hD'
        (fun x hx => hgrey x (by rw [hq]; exact List.mem_cons_of_mem _ hx)) (by
          intro p hp w hr
          rcases List.mem_append.1 hp with hp | hp
          · exact hcl' p hp w hr
          · rw [List.mem_singleton] at hp
            subst hp
            by_contra hn
            exact e3 w (adj_of_r h hr) (hall w hr hn) hn hr)
      exact ⟨f', h1, h2, Or.inr ⟨Ne.symm cs, h3⟩⟩
    | cons l rs' =>
      refine ⟨_, rfl, hc1, Or.inr ⟨Ne.symm cs, Or.inr ⟨hun, ?_⟩⟩⟩
      obtain ⟨w, ha', rfl, hw, hr⟩ := e4 l rs' rfl
      refine ⟨⟨P, q' ++ [u], by simp only; rw [hq]; rfl, by simp only; rw [hD]; simp, hcl'⟩, hgrey, ⟨w, rs', rfl, ha', hw, hr⟩, ?_, ?_⟩
      · intro l hl
        exact hpl l (by rw [e1]; exact List.mem_append_right _ hl)
      · intro w hr hw
        have hm := hall w hr hw
        rw [e1] at hm
        rcases List.mem_append.1 hm with hm | hm
        · exact absurd hr (e3 w (adj_of_r h hr) hm hw)
        · exact hm

/-- The entry of the search tree for `x` is an edge from `p`. -/
def Ent (g0 : Rows (R × R)) (tree : List (Option TreeEdge)) (p x : Nat) : Prop :=
  Adj g0 p x ∧ tree[x]? = some (some { loc := place g0 p x, back := counterpart g0 p x, pred := p })

/-- The vertices in the order of their discovery. -/
inductive Disc (g0 : Rows (R × R)) (s : Net R) (tree : List (Option TreeEdge)) (source : Nat) : List Nat → Prop
  | root : Disc g0 s tree source [source]
  | snoc {D : List Nat} {x p : Nat} : Disc g0 s tree source D → x ∉ D → p ∈ D → 0 < r s p x → Ent g0 tree p x → Disc g0 s tree source (D ++ [x])

omit [IsStrictOrderedRing R] in
theorem Disc.nodup {tree : List (Option TreeEdge)} {source : Nat} {D : List Nat} (h : Disc g0 s tree source D) : D.Nodup := by
  induction h with
  | root => simp
  | snoc _ hx _ _ _ ih =>
    rw [List.nodup_append]
    refine ⟨ih, by simp, ?_⟩
    intro a ha b hb
    rw [List.mem_singleton] at hb
    subst hb
    rintro rfl
    exact hx ha

omit [IsStrictOrderedRing R] in
theorem Disc.lt {tree : List (Option TreeEdge)} {source : Nat} {D : List Nat} (h : Disc g0 s tree source D) (hg : InRange g0) (hs : source < g0.length) : ∀ x ∈ D, x < g0.length := by
  induction h with
  | root => simpa using hs
  | snoc _ hx _ _ he ih =>
    intro y hy
    rcases List.mem_append.1 hy with hy | hy
    · exact ih y hy
    · rw [List.mem_singleton] at hy
      rw [hy]; exact (he.1.lt hg).2

omit [IsStrictOrderedRing R] in
theorem Disc.source_mem {tree : List (Option TreeEdge)} {source : Nat} {D : List Nat} (h : Disc g0 s tree source D) : source ∈ D := by
  induction h with
  | root => simp
  | snoc _ _ _ _ _ ih => exact List.mem_append_left _ ih

omit [IsStrictOrderedRing R] in
theorem Disc.set {tree : List (Option TreeEdge)} {source : Nat} {D : List Nat} (h : Disc g0 s tree source D) {x : Nat} (hx : x ∉ D) (t : Option TreeEdge) :
    Disc g0 s (tree.set x t) source D := by
  induction h with
  | root => exact .root
  | @snoc D y p _ hy hp hr he ih =>
    have hxy : x ≠ y := fun e => hx (by simp [e])
    exact .snoc (ih fun h' => hx (List.mem_append_left _ h')) hy hp hr ⟨he.1, by rw [List.getElem?_set_ne hxy]; exact he.2⟩

/-- The state of the search. -/
structure SInv (g0 : Rows (R × R)) (s : Net R) (source sink : Nat) (D : List Nat) (f : Fb) (tree : List (Option TreeEdge)) : Prop where
  cols : Cols g0.length f.col D
  len : tree.length = g0.length
  disc : Disc g0 s tree source D
  found : sink ∈ D → f.col[sink]? = some .grey
  run : sink ∉ D → (f.unreach = true ∧ Closed s D D) ∨ (f.unreach = false ∧ Front g0 s D f)

theorem start_ok (h : Good g0 s) (hg : InRange g0) (hs : Simple g0) {source sink : Nat} (hsrc : source < g0.length) (hne : source ≠ sink) (hadj : ∃ u, Adj g0 source u)
    {tree : List (Option TreeEdge)} (ht : tree.length = g0.length) : ∃ f, fbStart s source = .ok (s, f) ∧ SInv g0 s source sink [source] f tree := by
  unfold fbStart
  obtain ⟨ls, l1, l2, l3⟩ := inner_ok h hs hsrc
  have hls : ls ≠ [] := by
    obtain ⟨u, hu⟩ := hadj
    intro e
    have := l3 u hu
    rw [e] at this; cases this
  obtain ⟨pre, rest, e1, e2, e3, e4⟩ := skip0_ok h hg hs source ls hls l2
  rw [vset_of_lt (by rw [List.length_replicate, h.len]; exact hsrc), res_bind_ok, l1, res_bind_ok, e2, res_bind_ok]
  refine ⟨_, rfl, ⟨?_, ?_⟩, ht, .root, fun hm => absurd (List.mem_singleton.1 hm).symm hne, fun _ => ?_⟩
  · simp only; rw [List.length_set, List.length_replicate, h.len]
  · intro x hx
    simp only
    by_cases e : source = x
    · subst e
      rw [List.getElem?_set_self (by rw [List.length_replicate, h.len]; exact hx)]
      simp
    · rw [List.getElem?_set_ne e, List.getElem?_replicate, if_pos (by rw [h.len]; exact hx)]
      simp [Ne.symm e]
  · cases rest with
    | nil =>
      left
      refine ⟨rfl, ?_⟩
      intro p hp u hr
      rw [List.mem_singleton] at hp
      subst hp
      have ha := adj_of_r h hr
      have hm := l3 u ha
      rw [e1, List.append_nil] at hm
      exact absurd hr (e3 u ha hm)
    | cons l rs =>
      right
      refine ⟨by simp, ?_⟩
      obtain ⟨u, ha, rfl, hr⟩ := e4 l rs rfl
      refine ⟨⟨[], [], rfl, rfl, fun p hp => absurd hp (by simp)⟩, ?_, ⟨u, rs, rfl, ha, ?_, hr⟩, ?_, ?_⟩
      · intro x hx
        rw [List.mem_singleton] at hx
        subst hx
        simp only
        rw [List.getElem?_set_self (by rw [List.length_replicate, h.len]; exact hsrc)]
      · rw [List.mem_singleton]; exact Ne.symm (ha.ne hs)
      · intro l hl
        exact l2 l (by rw [e1]; exact List.mem_append_right _ hl)
      · intro w hr _
        have ha := adj_of_r h hr
        have hm := l3 w ha
        rw [e1] at hm
        rcases List.mem_append.1 hm with hm | hm
        · exact absurd hr (e3 w ha hm)
        · exact hm

theorem gives_loop_step {σ ρ : Type} {body : σ → Res (σ ⊕ ρ)} {s s' : σ} {Q : ρ → Prop} (h : body s = .ok (.inl s')) (hg : Run.Gives (Run.loop body s') Q) :
    Run.Gives (Run.loop body s) Q := by
  obtain ⟨⟨o, ho⟩, h2⟩ := hg
  refine ⟨⟨o, Loop.step h ho⟩, fun o' ho' => ?_⟩
  have : o' = o := Loop.det ho' (Loop.step h ho)
  rw [this]; exact h2 o ho

theorem gives_loop_done {σ ρ : Type} {body : σ → Res (σ ⊕ ρ)} {s : σ} {r : ρ} {Q : ρ → Prop} (h : body s = .ok (.inr r)) (hq : Q r) :
    Run.Gives (Run.loop body s) Q :=
  ⟨⟨_, Loop.done h⟩, fun _ ho => ⟨r, Loop.det ho (Loop.done h), hq⟩⟩

theorem length_le_of_nodup {D : List Nat} {n : Nat} (h : D.Nodup) (hlt : ∀ x ∈ D, x < n) : D.length ≤ n := by
  have := (List.subperm_of_subset h (fun x hx => List.mem_range.2 (hlt x hx)) : D.Subperm (List.range n)).length_le
  simpa using this

/-- The search ends; it has found the sink or a set of vertices without residual capacity out of it. -/
theorem search_ok (h : Good g0 s) (hg : InRange g0) (hs : Simple g0) {source sink : Nat} (hsrc : source < g0.length) (hsink : sink < g0.length) (k : Nat) :
    ∀ {D : List Nat} {f : Fb} {tree : List (Option TreeEdge)}, g0.length - D.length = k → SInv g0 s source sink D f tree →
    Run.Gives (Run.loop (searchRound sink) (s, f, tree)) fun o => o.1 = s ∧ o.2.2.length = g0.length ∧ ∃ D c, o.2.1.col[sink]? = some c ∧ Disc g0 s o.2.2 source D ∧
      ((c = .grey ∧ sink ∈ D) ∨ (c ≠ .grey ∧ sink ∉ D ∧ Closed s D D)) := by
  induction k using Nat.strongRecOn with
  | ind k ih =>
    intro D f tree hk hi
    have hcl : sink < f.col.length := by rw [hi.cols.1]; exact hsink
    have hget : f.col[sink]? = some f.col[sink] := List.getElem?_eq_getElem hcl
    by_cases hm : sink ∈ D
    · have hfnd := hi.found hm
      refine gives_loop_done (r := (s, f, tree)) ?_ ⟨rfl, hi.len, D, .grey, hfnd, hi.disc, Or.inl ⟨rfl, hm⟩⟩
      unfold searchRound
      dsimp only
      rw [vget_eq_ok.2 hfnd, res_bind_ok, if_pos (Or.inl rfl)]
      rfl
    · have hwh : f.col[sink]? = some .white := (hi.cols.2 sink hsink).2 hm
      rcases hi.run hm with ⟨hu, hcl'⟩ | ⟨hu, hfr⟩
      · refine gives_loop_done (r := (s, f, tree)) ?_ ⟨rfl, hi.len, D, .white, hwh, hi.disc, Or.inr ⟨by decide, hm, hcl'⟩⟩
        unfold searchRound
        dsimp only
        rw [vget_eq_ok.2 hwh, res_bind_ok, if_pos (Or.inr hu)]
        rfl
      · obtain ⟨u, rs, hrest, ha, huD, hr⟩ := hfr.head
        have hlt := hi.disc.lt hg hsrc
        obtain ⟨f', h1, h2, h3⟩ := advance_ok h hg hs hi.disc.nodup hlt hi.cols hfr hu sink hrest ha huD
        have hul := (ha.lt hg).2
        have hvD : f.v ∈ D := by
          obtain ⟨P, q', hq, hD, -⟩ := hfr.queue
          rw [hD, hq]; simp
        have hi' : SInv g0 s source sink (D ++ [u]) f' (tree.set u (some { loc := place g0 f.v u, back := counterpart g0 f.v u, pred := f.v })) := by
          refine ⟨h2, by rw [List.length_set]; exact hi.len, .snoc (hi.disc.set huD _) huD hvD hr ⟨ha, ?_⟩, ?_, ?_⟩
          · rw [List.getElem?_set_self (by rw [hi.len]; exact hul)]
          · intro hm'
            rcases h3 with ⟨-, h⟩ | ⟨hne, -⟩
            · exact h
            · rcases List.mem_append.1 hm' with hm' | hm'
              · exact absurd hm' hm
              · exact absurd (List.mem_singleton.1 hm').symm hne
          · intro hm'
            rcases h3 with ⟨rfl, h⟩ | ⟨hne, h⟩
            · simp at hm'
            · exact h
        have hlen := length_le_of_nodup hi'.disc.nodup (hi'.disc.lt hg hsrc)
        rw [List.length_append, List.length_singleton] at hlen
        refine gives_loop_step (s' := (s, f', tree.set u (some { loc := place g0 f.v u, back := counterpart g0 f.v u, pred := f.v }))) ?_
          (ih (g0.length - (D ++ [u]).length) (by rw [List.length_append, List.length_singleton]; omega) rfl hi')
        unfold searchRound
        dsimp only
        rw [vget_eq_ok.2 hwh, res_bind_ok, if_neg (by rw [hu]; simp), hrest]
        dsimp only
        rw [read_place h hg ha, res_bind_ok]
        dsimp only
        rw [getBack_place h hg hs ha, res_bind_ok]
        dsimp only
        rw [vset_of_lt (by rw [hi.len]; exact hul), res_bind_ok, h1]
        rfl

/-- The way back from `x` to the source in the search tree, as a list of edges. -/
inductive Path (g0 : Rows (R × R)) (tree : List (Option TreeEdge)) (source : Nat) : Nat → List (Nat × Nat) → Prop
  | last {x : Nat} : Ent g0 tree source x → x ≠ source → Path g0 tree source x [(source, x)]
  | step {x p : Nat} {E : List (Nat × Nat)} : Ent g0 tree p x → p ≠ source → x ≠ source → Path g0 tree source p E → (∀ e ∈ E, e.1 ≠ x ∧ e.2 ≠ x) →
      Path g0 tree source x ((p, x) :: E)

omit [IsStrictOrderedRing R] in
theorem Disc.path {tree : List (Option TreeEdge)} {source : Nat} {D : List Nat} (h : Disc g0 s tree source D) :
    ∀ x ∈ D, x ≠ source → ∃ E, Path g0 tree source x E ∧ ∀ e ∈ E, e.1 ∈ D ∧ e.2 ∈ D ∧ 0 < r s e.1 e.2 := by
  induction h with
  | root => intro x hx hne; exact absurd (List.mem_singleton.1 hx) hne
  | @snoc D y p hd hy hp hr he ih =>
    intro x hx hne
    rcases List.mem_append.1 hx with hx | hx
    · obtain ⟨E, h1, h2⟩ := ih x hx hne
      exact ⟨E, h1, fun e he => ⟨List.mem_append_left _ (h2 e he).1, List.mem_append_left _ (h2 e he).2.1, (h2 e he).2.2⟩⟩
    · rw [List.mem_singleton] at hx
      subst hx
      by_cases c : p = source
      · subst c
        refine ⟨[(p, x)], .last he hne, ?_⟩
        intro e hm
        rw [List.mem_singleton] at hm
        subst hm
        exact ⟨List.mem_append_left _ hp, by simp, hr⟩
      · obtain ⟨E, h1, h2⟩ := ih p hp c
        refine ⟨(p, x) :: E, .step he c hne h1 ?_, ?_⟩
        · intro e hm
          exact ⟨fun h' => hy (h' ▸ (h2 e hm).1), fun h' => hy (h' ▸ (h2 e hm).2.1)⟩
        · intro e hm
          rcases List.mem_cons.1 hm with hm | hm
          · subst hm
            exact ⟨List.mem_append_left _ hp, by simp, hr⟩
          · exact ⟨List.mem_append_left _ (h2 e hm).1, List.mem_append_left _ (h2 e hm).2.1, (h2 e hm).2.2⟩

omit [CommRing R] [LinearOrder R] [IsStrictOrderedRing R] in
theorem entry_ok {tree : List (Option TreeEdge)} {p x : Nat} (h : Ent g0 tree p x) :
    entry tree x = .ok { loc := place g0 p x, back := counterpart g0 p x, pred := p } := by
  unfold entry
  rw [vget_eq_ok.2 h.2]; rfl

omit [IsStrictOrderedRing R] in
theorem minRound_ok (h : Good g0 s) (hg : InRange g0) {tree : List (Option TreeEdge)} {source p x : Nat} (he : Ent g0 tree p x) (m : R) :
    minRound s tree source (x, false, m) = .ok (.inl (p, decide (p = source), min m (r s p x))) := by
  unfold minRound
  rw [if_neg (by simp), entry_ok he, res_bind_ok]
  dsimp only
  rw [read_place h hg he.1, res_bind_ok, read_back h hg he.1, res_bind_ok]
  rfl

omit [IsStrictOrderedRing R] in
/-- The first loop delivers the smallest residual capacity, or 100000. -/
theorem min_ok (h : Good g0 s) (hg : InRange g0) {tree : List (Option TreeEdge)} {source x : Nat} {E : List (Nat × Nat)} (hp : Path g0 tree source x E) :
    ∀ m : R, Run.Gives (Run.loop (minRound s tree source) (x, false, m)) fun m' => m' ≤ m ∧ (∀ e ∈ E, m' ≤ r s e.1 e.2) ∧ (m' = m ∨ ∃ e ∈ E, m' = r s e.1 e.2) := by
  have hdone : ∀ y (m : R), minRound s tree source (y, true, m) = .ok (.inr m) := fun y m => by unfold minRound; rw [if_pos rfl]; rfl
  have hmin : ∀ a b : R, min a b = a ∨ min a b = b := fun a b => by rcases le_total a b with c | c <;> simp [c]
  induction hp with
  | @last x he hne =>
    intro m
    refine gives_loop_step (minRound_ok h hg he m) ?_
    rw [decide_eq_true rfl]
    refine gives_loop_done (hdone _ _) ⟨min_le_left _ _, ?_, ?_⟩
    · intro e hm; rw [List.mem_singleton] at hm; subst hm; exact min_le_right _ _
    · rcases hmin m (r s source x) with c | c
      · exact Or.inl c
      · exact Or.inr ⟨_, List.mem_singleton.2 rfl, c⟩
  | @step x p E he hps hxs _ _ ih =>
    intro m
    refine gives_loop_step (minRound_ok h hg he m) ?_
    rw [decide_eq_false hps]
    refine (ih _).mono ?_
    rintro m' ⟨h1, h2, h3⟩
    refine ⟨h1.trans (min_le_left _ _), ?_, ?_⟩
    · intro e hm
      rcases List.mem_cons.1 hm with hm | hm
      · subst hm; exact h1.trans (min_le_right _ _)
      · exact h2 e hm
    · rcases h3 with h3 | ⟨e, hm, h3⟩
      · rcases hmin m (r s p x) with c | c
        · exact Or.inl (h3.trans c)
        · exact Or.inr ⟨_, List.mem_cons_self, h3.trans c⟩
      · exact Or.inr ⟨e, List.mem_cons_of_mem _ hm, h3⟩

/-- The flow is within the capacities. -/
def Feas (s : Net R) : Prop := ∀ a b, 0 ≤ F s a b ∧ F s a b ≤ C s a b

theorem excess_push' (hg : InRange g0) (hs : Simple g0) {s s' : Net R} {v u : Nat} (ha : Adj g0 v u) {m : R} (h : F s' v u - F s' u v = F s v u - F s u v + m)
    (ho : ∀ a b, ¬ (a = v ∧ b = u) → ¬ (a = u ∧ b = v) → F s' a b = F s a b) (w : Nat) :
    excess g0.length (F s') w = excess g0.length (F s) w + (if w = v then m else 0) - (if w = u then m else 0) :=
  excess_push (ha.lt hg).1 (ha.lt hg).2 (ha.ne hs) h ho w

/-- The second loop sends the flow along the path. -/
theorem pushLoop_ok (hg : InRange g0) (hs : Simple g0) {tree : List (Option TreeEdge)} {source x : Nat} {E : List (Nat × Nat)} (hp : Path g0 tree source x E) {m : R} (hm : 0 < m) :
    ∀ s : Net R, Good g0 s → Feas s → (∀ e ∈ E, m ≤ r s e.1 e.2) → Run.Gives (Run.loop (pushRound tree source m) (x, false, s)) fun s' => Good g0 s' ∧ Feas s' ∧
      ∀ w, excess g0.length (F s') w = excess g0.length (F s) w + (if w = source then m else 0) - (if w = x then m else 0) := by
  have hdone : ∀ y (s : Net R), pushRound tree source m (y, true, s) = .ok (.inr s) := fun y s => by unfold pushRound; rw [if_pos rfl]; rfl
  have hround : ∀ {p x : Nat} (s : Net R), Good g0 s → Feas s → Ent g0 tree p x → m ≤ r s p x → ∃ s', pushRound tree source m (x, false, s) = .ok (.inl (p, decide (p = source), s')) ∧ Good g0 s' ∧
      Feas s' ∧ F s' p x - F s' x p = F s p x - F s x p + m ∧ ∀ a b, ¬ (a = p ∧ b = x) → ¬ (a = x ∧ b = p) → F s' a b = F s a b := by
    intro p x s h hf he hr
    obtain ⟨s', h1, h2⟩ := push_ok h hg hs he.1 hm hr hf
    refine ⟨s', ?_, h2⟩
    unfold pushRound
    rw [if_neg (by simp), entry_ok he, res_bind_ok]
    dsimp only
    rw [h1]; rfl
  induction hp with
  | @last x he hne =>
    intro s h hf hE
    obtain ⟨s', h1, h2, h3, h4, h5⟩ := hround s h hf he (hE _ (List.mem_singleton.2 rfl))
    refine gives_loop_step h1 ?_
    rw [decide_eq_true rfl]
    exact gives_loop_done (hdone _ _) ⟨h2, h3, excess_push' hg hs he.1 h4 h5⟩
  | @step x p E he hps hxs _ hx ih =>
    intro s h hf hE
    obtain ⟨s', h1, h2, h3, h4, h5⟩ := hround s h hf he (hE _ List.mem_cons_self)
    refine gives_loop_step h1 ?_
    rw [decide_eq_false hps]
    refine (ih s' h2 h3 ?_).mono ?_
    · intro e hm
      have hne := hx e hm
      have hr := hE e (List.mem_cons_of_mem _ hm)
      unfold r at hr ⊢
      rw [h5 e.1 e.2 (fun h' => hne.2 h'.2) (fun h' => hne.1 h'.1), h5 e.2 e.1 (fun h' => hne.1 h'.2) (fun h' => hne.2 h'.1), h2.cap, ← h.cap]
      exact hr
    · rintro s'' ⟨g1, g2, g3⟩
      refine ⟨g1, g2, fun w => ?_⟩
      rw [g3, excess_push' hg hs he.1 h4 h5 w]
      ring

end NW.MaxFlow
