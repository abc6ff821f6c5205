import Verif.Lemmas.BackEdge

/-!
# C72: `back_edge_range`
-/

namespace NW.BackEdge
open Spec

variable {β : Type}

/-- The vertices with an edge to `v` to which `v` has no edge. -/
def oneWay (g : Rows β) (v : Nat) : List Nat := (List.range g.length).filter fun u => decide (v ∈ nbrs g u) && !decide (u ∈ nbrs g v)

/-- The states of a range: after its construction, and after calls of `get_back_edge` for edges of the graph. -/
inductive Reach (zero : β) (g : Rows β) : BE β → Prop
  | start {asNeeded : Bool} {s : BE β} (h : build zero g asNeeded = .ok s) : Reach zero g s
  | call {s s' : BE β} {v u : Nat} {l : Loc} (h : Reach zero g s) (he : Edge g v u) (hc : getBack zero s v u = .ok (s', l)) : Reach zero g s'

theorem Reach.inv {zero : β} {g : Rows β} (hg : InRange g) {s : BE β} (h : Reach zero g s) : Inv (· = zero) g s := by
  induction h with
  | @start b s h =>
    cases b with
    | true => cases h; exact inv_empty _ g
    | false =>
      obtain ⟨s', h1, h2, -⟩ := build_ok (P := (· = zero)) rfl hg
      rw [h1] at h; cases h; exact h2
  | call _ he hc ih =>
    obtain ⟨s'', h1, h2, -⟩ := getBack_ok (P := (· = zero)) rfl hg ih he
    rw [h1] at hc; cases hc; exact h2

theorem mapM_append_ok {X Y : Type} {f : X → Res Y} {l l' : List X} {r r' : List Y} (h : l.mapM f = .ok r) (h' : l'.mapM f = .ok r') : (l ++ l').mapM f = .ok (r ++ r') := by
  rw [List.mapM_append, h, res_bind_ok, h']; rfl

theorem read_row {P : β → Prop} {g : Rows β} {s : BE β} (hi : Inv P g s) {v : Nat} (hv : v < g.length) :
    ((List.range (g.getD v []).length).map (Loc.row v)).mapM (read s) = .ok (g.getD v []) := by
  have : ((List.range (g.getD v []).length).map (Loc.row v)).mapM (read s) = (List.range (g.getD v []).length).mapM fun k => read s (Loc.row v k) := by
    rw [List.mapM_map]; rfl
  rw [this]
  have h := mapM_range_eq (n := (g.getD v []).length) (f := fun k => read s (Loc.row v k)) (l := g.getD v []) rfl (fun i hi' => by
    show (do let r ← vget s.g v; vget r i) = _
    rw [hi.g_eq, vget_getD [] hv, res_bind_ok, vget_of_lt hi'])
  exact h

/-- C72.  The constructor succeeds, and a loop over the edges of `v` delivers the stored ones and then, in increasing order, one edge without capacity to every `u` that has an
edge to `v` but none from it. -/
theorem back_edge_range_rows (zero : β) (g : Rows β) (hg : InRange g) : ∃ s, build zero g false = .ok s ∧
    ∀ v, v < g.length → ∃ ls, inner s v = .ok ls ∧ ls.mapM (read s) = .ok (g.getD v [] ++ (oneWay g v).map fun u => (u, zero)) := by
  obtain ⟨s, h1, hi, hc⟩ := build_ok (P := (· = zero)) rfl hg
  refine ⟨s, h1, fun v hv => ?_⟩
  refine ⟨(List.range (g.getD v []).length).map (Loc.row v) ++ (s.aextra.getD v []).map fun p => Loc.ax v p.1, ?_, ?_⟩
  · unfold inner
    rw [hi.g_eq, vget_getD [] hv, res_bind_ok, vget_getD [] (by rw [hi.len3]; exact hv), res_bind_ok]
    rfl
  refine mapM_append_ok (read_row hi hv) ?_
  have hkeys : (s.aextra.getD v []).map Prod.fst = oneWay g v := by
    refine sorted_ext (hi.sort3 v) ?_ ?_
    · exact List.Pairwise.filter _ List.pairwise_lt_range
    · intro u
      rw [mem_keys_iff]
      unfold oneWay
      rw [List.mem_filter, List.mem_range]
      constructor
      · intro h
        obtain ⟨e, he⟩ := Option.isSome_iff_exists.1 h
        obtain ⟨a, b, -⟩ := hi.ax v u e he
        exact ⟨a.src_lt, by simpa [Edge] using And.intro a b⟩
      · rintro ⟨-, h⟩
        have h' : Edge g u v ∧ ¬ Edge g v u := by simpa [Edge] using h
        exact ((hc u v h'.1).2 h'.2).2.1
  have e1 : (oneWay g v).map (fun u => (u, zero)) = (s.aextra.getD v []).map Prod.snd := by
    rw [← hkeys, List.map_map]
    refine List.map_congr_left fun p hp => ?_
    obtain ⟨a, b, c, d⟩ := hi.ax v p.1 p.2 (find_of_mem (hi.sort3 v) hp)
    show (p.1, zero) = p.2
    rw [← c, ← d]
  rw [e1, List.mapM_map]
  refine mapM_ok_of_forall fun p hp => ?_
  show (do
    let m ← vget s.aextra v
    match find m p.1 with
    | some e => return e
    | none => .error .outOfBounds : Res (Nat × β)) = _
  rw [vget_getD [] (by rw [hi.len3]; exact hv), res_bind_ok, find_of_mem (hi.sort3 v) hp]
  rfl

/-- C72 (partial: what is missing is that the extra edge is shared with the loop over the edges of `u`, which is false, see `back_edge_extra_not_shared`).  For an edge from `v` to `u`, every call of `get_back_edge(v, u)`, at any time and in both modes of the constructor, returns a reference to the same place: the first edge
from `u` to `v` if there is one, and an extra edge from `u` to `v` without capacity otherwise. -/
theorem get_back_edge_partial (zero : β) (g : Rows β) (hg : InRange g) (v u : Nat) (he : Edge g v u) :
    ∃ l, ∀ s, Reach zero g s → ∃ s' e, getBack zero s v u = .ok (s', l) ∧ read s' l = .ok e ∧ e.1 = v ∧
      (Edge g u v → (∃ j, l = .row u j) ∧ (g.getD u []).find? (fun e => decide (e.1 = v)) = some e) ∧ (¬ Edge g u v → e.2 = zero) := by
  refine ⟨counterpart g v u, fun s hs => ?_⟩
  obtain ⟨s', h1, h2, -, h4⟩ := getBack_ok (P := (· = zero)) rfl hg (hs.inv hg) he
  obtain ⟨e, e1, e2, e3, e4⟩ := read_counterpart hg h2 he h4
  refine ⟨s', e, h1, e1, e2, fun hr => ⟨?_, e3 hr⟩, e4⟩
  obtain ⟨j, hj⟩ := (edge_iff_first g u v).1 hr
  exact ⟨j, by unfold counterpart; rw [hj]⟩

/-- C72.  In a range constructed with all extra edges, the counterpart of an extra edge from `v` to `u` is the first edge from `u` to `v`. -/
theorem get_back_edge_of_extra (zero : β) (g : Rows β) (hg : InRange g) (v u : Nat) (hn : ¬ Edge g v u) (hr : Edge g u v) (s : BE β) (hs : build zero g false = .ok s) :
    ∃ j e, getBack zero s v u = .ok (s, .row u j) ∧ read s (.row u j) = .ok e ∧ (g.getD u []).find? (fun e => decide (e.1 = v)) = some e := by
  obtain ⟨s', h1, hi, hc⟩ := build_ok (P := (· = zero)) rfl hg
  rw [h1] at hs
  cases hs
  have hv : v < g.length := hg _ _ hr
  obtain ⟨j, hj⟩ := (edge_iff_first g u v).1 hr
  obtain ⟨e, e1, e2, e3⟩ := first_some hj
  refine ⟨j, e, ?_, ?_, e3⟩
  · unfold getBack
    have h2 := ((hc u v hr).2 hn).2.2
    rw [lookup_eq hi hv, res_bind_ok, if_pos (Or.inl h2)]
    unfold counterpart
    rw [hj]; rfl
  · show (do let r ← vget s.g u; vget r j) = _
    rw [hi.g_eq, vget_getD [] hr.src_lt, res_bind_ok]
    exact vget_eq_ok.2 e1

/-- C72.  If there is an edge neither from `v` to `u` nor from `u` to `v`, the call dereferences an iterator past the end. -/
theorem get_back_edge_absent (zero : β) (g : Rows β) (hg : InRange g) (v u : Nat) (hv : v < g.length) (hn : ¬ Edge g v u) (hr : ¬ Edge g u v) (s : BE β) (hs : Reach zero g s) :
    getBack zero s v u = .error .outOfBounds := by
  have hi := hs.inv hg
  have e1 : ¬ ((at2 s.back v u).isSome = true ∨ (at2 s.bextra v u).isSome = true) := by
    rintro (h | h) <;> obtain ⟨p, hp⟩ := Option.isSome_iff_exists.1 h
    · exact hr ((edge_iff_first g u v).2 ⟨_, (hi.back _ _ _ hp).2⟩)
    · exact hn (hi.bx _ _ _ hp).1
  have e2 : lookup s v u = .ok none := by rw [lookup_eq hi hv, if_neg e1]
  unfold getBack
  rw [e2, res_bind_ok]
  dsimp only
  rw [hi.g_eq, vget_getD [] hv, res_bind_ok, (not_edge_iff_first g v u).1 hn]
  dsimp only
  rw [res_pure, res_bind_ok, e2]
  rfl

/-- C72 (negative).  The extra edge that `get_back_edge(v, u)` refers to is not the one a loop over the edges of `u` delivers: what is written through the reference is not seen by
the loop. -/
theorem back_edge_extra_not_shared (zero : β) (g : Rows β) (hg : InRange g) (v u : Nat) (he : Edge g v u) (hn : ¬ Edge g u v) (s : BE β) (hs : build zero g false = .ok s) (b : β) :
    ∃ l s', getBack zero s v u = .ok (s, l) ∧ write s l b = .ok s' ∧ read s' l = .ok (v, b) ∧
      ∃ ls, inner s' u = .ok ls ∧ ls.mapM (read s') = .ok (g.getD u [] ++ (oneWay g u).map fun w => (w, zero)) := by
  obtain ⟨s', h1, hrows⟩ := back_edge_range_rows zero g hg
  rw [h1] at hs
  cases hs
  obtain ⟨s', h1', hi, hc⟩ := build_ok (P := (· = zero)) rfl hg
  rw [h1] at h1'
  cases h1'
  have hv : v < g.length := he.src_lt
  have hu : u < g.length := hg _ _ he
  have h2 := ((hc v u he).2 hn).1
  obtain ⟨e, hbe⟩ := Option.isSome_iff_exists.1 h2
  obtain ⟨-, -, h3, -⟩ := hi.bx _ _ _ hbe
  have hl2 : v < s.bextra.length := by rw [hi.len2]; exact hv
  refine ⟨.bx v u, { s with bextra := s.bextra.set v (update (s.bextra.getD v []) u fun e => (e.1, b)) }, ?_, ?_, ?_, ?_⟩
  · unfold getBack
    rw [lookup_eq hi hv, res_bind_ok, if_pos (Or.inr h2)]
    unfold counterpart
    rw [(not_edge_iff_first g u v).1 hn]; rfl
  · show (do
      let m ← vget s.bextra v
      let x ← vset s.bextra v (update m u fun e => (e.1, b))
      return { s with bextra := x } : Res (BE β)) = _
    rw [vget_getD [] hl2, res_bind_ok, vset_of_lt hl2]; rfl
  · simp only [read]
    rw [vget_getD [] (by simpa using hl2), res_bind_ok, getD_set _ _ _ _ _ hl2, if_pos rfl, find_update, if_pos rfl]
    unfold at2 at hbe
    rw [hbe]
    simp only [Option.map_some]
    rw [h3]
    rfl
  · obtain ⟨ls, l1, l2⟩ := hrows u hu
    refine ⟨ls, l1, ?_⟩
    rw [← l2]
    have hls : ∀ l ∈ ls, ∀ a c, l ≠ .bx a c := by
      unfold inner at l1
      rw [hi.g_eq, vget_getD [] hu, res_bind_ok, vget_getD [] (by rw [hi.len3]; exact hu), res_bind_ok] at l1
      cases l1
      intro l hl a c hlc
      subst hlc
      simp at hl
    clear l1 l2
    induction ls with
    | nil => rfl
    | cons l ls ih =>
      rw [List.mapM_cons, List.mapM_cons, ih fun l hl => hls l (List.mem_cons_of_mem _ hl)]
      have : read { s with bextra := s.bextra.set v (update (s.bextra.getD v []) u fun e => (e.1, b)) } l = read s l := by
        cases l with
        | row => rfl
        | bx a c => exact absurd rfl (hls _ (by simp) a c)
        | ax => rfl
      rw [this]

/-- A path with an edge of both directions and one of a single direction. -/
def sample : Rows Nat := [[(1, 5)], [(0, 6), (2, 7)], []]

example : ∃ s, build 0 sample false = .ok s ∧ ∀ v, v < 3 → ∃ ls, inner s v = .ok ls ∧ ls.mapM (read s) = .ok (sample.getD v [] ++ (oneWay sample v).map fun u => (u, 0)) :=
  back_edge_range_rows 0 sample (by decide)

example : oneWay sample 2 = [1] := by decide

example : ∃ s, build 0 sample false = .ok s ∧ getBack 0 s 0 1 = .ok (s, .row 1 0) ∧ getBack 0 s 1 2 = .ok (s, .bx 1 2) ∧ getBack 0 s 2 1 = .ok (s, .row 1 1) :=
  ⟨_, rfl, rfl, rfl, rfl⟩

example : ∃ s l s', build 0 sample false = .ok s ∧ getBack 0 s 1 2 = .ok (s, l) ∧ write s l 9 = .ok s' ∧ read s' l = .ok (1, 9) ∧ read s' (.ax 2 1) = .ok (1, 0) :=
  ⟨_, _, _, rfl, rfl, rfl, rfl, rfl⟩

end NW.BackEdge
