import Verif.Spec.CoStars
import Verif.Props.CsrBuild
import Verif.Props.Bfs
import Mathlib.Tactic.ByContra
import Mathlib.Data.List.Nodup
import Mathlib.Data.List.Perm.Subperm

/-! Helper lemmas for the examples. -/

namespace NW.Oracle
open Spec

variable {T N K α β : Type} [DecidableEq T] [DecidableEq N] [DecidableEq K]

/-! ## The maps -/

/-- The map gives the position in the vector. -/
structure Dict.Ok (d : Dict K) : Prop where
  counter : d.counter = d.keys.length
  nodup : d.keys.Nodup
  find : ∀ k, d.find k = if k ∈ d.keys then some (d.keys.idxOf k) else none

theorem Dict.ok_empty : (Dict.empty : Dict K).Ok := ⟨rfl, List.nodup_nil, fun _ => rfl⟩

theorem Dict.Ok.lookup {d : Dict K} (h : d.Ok) {k : K} (hk : k ∈ d.keys) : d.lookup k = d.keys.idxOf k := by
  unfold Dict.lookup
  rw [h.find, if_pos hk]; rfl

theorem Dict.Ok.lookup_none {d : Dict K} (h : d.Ok) {k : K} (hk : k ∉ d.keys) : d.lookup k = 0 := by
  unfold Dict.lookup
  rw [h.find, if_neg hk]; rfl

theorem idxOf_prefix {l l' : List K} (h : l <+: l') {k : K} (hk : k ∈ l) : l'.idxOf k = l.idxOf k := by
  obtain ⟨x, rfl⟩ := h
  exact List.idxOf_append_of_mem hk

theorem enter_ok {d : Dict K} (h : d.Ok) (k : K) : ∃ d', d.enter k = .ok d' ∧ d'.Ok ∧ d.keys <+: d'.keys ∧ k ∈ d'.keys ∧ ∀ x ∈ d'.keys, x ∈ d.keys ∨ x = k := by
  unfold Dict.enter
  rw [h.find]
  by_cases hk : k ∈ d.keys
  · rw [if_pos hk]
    exact ⟨d, rfl, h, List.prefix_refl _, hk, fun x hx => .inl hx⟩
  · rw [if_neg hk]
    dsimp only
    have h1 : vget (d.keys ++ [k]) (d.counter + 1 - 1) = .ok k := by
      rw [vget_eq_ok, h.counter]; simp
    refine ⟨{ map := (k, d.counter) :: d.map, keys := d.keys ++ [k], counter := d.counter + 1 }, ?_, ⟨by simp [h.counter], ?_, fun x => ?_⟩, List.prefix_append _ _, by simp, fun x hx => by simpa using hx⟩
    · have : (d.keys ++ [k]).length = d.counter + 1 := by simp [h.counter]
      rw [this, h1]
      simp [check]
    · exact List.nodup_append.2 ⟨h.nodup, by simp, fun a ha b hb => by simp at hb; subst hb; exact fun e => hk (e ▸ ha)⟩
    · have hf := h.find x
      unfold Dict.find at hf ⊢
      by_cases hx : k = x
      · subst hx
        simp [List.idxOf_append_of_notMem hk, h.counter]
      · rw [List.find?_cons_of_neg (by simpa using hx), hf]
        have : x ∈ d.keys ++ [k] ↔ x ∈ d.keys := by simp [Ne.symm hx]
        by_cases hm : x ∈ d.keys
        · rw [if_pos hm, if_pos (this.2 hm), List.idxOf_append_of_mem hm]
        · rw [if_neg hm, if_neg (fun h' => hm (this.1 h'))]

/-! ## Lists of edges under construction -/

/-- The list is open, holds `es`, and its number of vertices is at most `B` and above all endpoints. -/
structure Good (B : Nat) (el : EdgeList α) (es : List (Nat × Nat × α)) : Prop where
  wf : el.Wf
  isOpen : el.isOpen = true
  card : el.card ≤ B
  contents : el.contents = es
  below : EndpointsBelow el.card es

theorem good_new (B : Nat) : Good B ((EdgeList.new 0).openForPushBack : EdgeList α) [] := ⟨⟨rfl, rfl⟩, rfl, Nat.zero_le _, rfl, by simp [EndpointsBelow]⟩

theorem Good.push {B w : Nat} (hB : B < 2 ^ w) {el : EdgeList α} {es : List (Nat × Nat × α)} (h : Good B el es) {i j : Nat} (hi : i < B) (hj : j < B) (a : α) :
    ∃ el', el.pushBack w i j a = .ok el' ∧ Good B el' (es ++ [(i, j, a)]) := by
  have e1 : i % 2 ^ w = i := Nat.mod_eq_of_lt (by omega)
  have e2 : j % 2 ^ w = j := Nat.mod_eq_of_lt (by omega)
  have e3 : EdgeList.bumpCard w el.card i j = max (max i j + 1) el.card := by
    unfold EdgeList.bumpCard
    have := h.card
    rw [Nat.mod_eq_of_lt (a := max i j + 1) (by omega), Nat.mod_eq_of_lt (a := el.card) (by omega)]
  refine ⟨EdgeList.appendCols { el with card := max (max i j + 1) el.card } i j a, ?_, ?_, h.isOpen, ?_, ?_, ?_⟩
  · unfold EdgeList.pushBack
    rw [h.isOpen]
    simp only [check, if_true, res_bind_ok, e1, e2, e3]; rfl
  · exact EdgeList.appendCols_wf (el := { el with card := _ }) h.wf i j a
  · have := h.card
    show max (max i j + 1) el.card ≤ B
    omega
  · have := EdgeList.appendCols_contents (el := { el with card := max (max i j + 1) el.card }) h.wf i j a
    rw [this, ← h.contents]; rfl
  · intro x hx
    show x.1 < max (max i j + 1) el.card ∧ x.2.1 < max (max i j + 1) el.card
    rcases List.mem_append.1 hx with hx | hx
    · have := h.below x hx
      omega
    · simp at hx
      subst hx
      dsimp only
      omega

theorem foldlM_good {B : Nat} {f : EdgeList α → β → Res (EdgeList α)} {g : β → List (Nat × Nat × α)} (l : List β)
    (h : ∀ x ∈ l, ∀ el es, Good B el es → ∃ el', f el x = .ok el' ∧ Good B el' (es ++ g x)) {el : EdgeList α} {es : List (Nat × Nat × α)} (h0 : Good B el es) :
    ∃ el', l.foldlM f el = .ok el' ∧ Good B el' (es ++ l.flatMap g) := by
  refine foldlM_list_inv (fun pre el => Good B el (es ++ pre.flatMap g)) (by simpa using h0) ?_
  intro pre x post hl s hs
  obtain ⟨el', h1, h2⟩ := h x (by simp [hl]) s _ hs
  exact ⟨el', h1, by simpa [List.flatMap_append] using h2⟩

/-! ## The adjacencies -/

theorem adjacency_rows [Inhabited α] (o : Csr.Oracles α) (ho : o.Ok) (directed : Bool) (idx : Nat) (hidx : idx < 2) (el : EdgeList α) (hw : el.Wf) (hb : EndpointsBelow el.numVertices el.contents) :
    ∃ g, adjacency o directed idx el = .ok g ∧ g.length = el.numVertices ∧
      ∀ u x, x ∈ g.getD u [] ↔ if directed then (if idx = 0 then (u, x.1, x.2) ∈ el.contents else (x.1, u, x.2) ∈ el.contents) else (u, x.1, x.2) ∈ el.contents ∨ (x.1, u, x.2) ∈ el.contents := by
  obtain ⟨g, h1, h3, h5⟩ : ∃ g, Csr.ofEdgeList o directed idx false el = .ok g ∧ g.numVertices = el.numVertices ∧
      ∀ u, u < el.numVertices → ∃ r, g.row u = .ok r ∧ r.Perm (if directed then (if idx = 0 then outEdges el.contents u else inEdges el.contents u)
        else outEdges el.contents u ++ inEdges el.contents u) := by
    cases directed with
    | true =>
      obtain ⟨g, h1, -, h3, -, h5, -⟩ := Csr.csr_directed_build o ho el hw hb idx hidx
      exact ⟨g, h1, h3, by simpa using h5⟩
    | false =>
      obtain ⟨g, h1, -, h3, -, h5, -⟩ := Csr.csr_undirected_build o ho el hw hb idx hidx
      exact ⟨g, h1, h3, by simpa using h5⟩
  have mo : ∀ u (x : Nat × α), x ∈ outEdges el.contents u ↔ (u, x.1, x.2) ∈ el.contents := fun u x => by
    unfold outEdges
    simp only [List.mem_map, List.mem_filter, decide_eq_true_eq]
    constructor
    · rintro ⟨y, ⟨hy, rfl⟩, rfl⟩; exact hy
    · intro h; exact ⟨_, ⟨h, rfl⟩, rfl⟩
  have mi : ∀ u (x : Nat × α), x ∈ inEdges el.contents u ↔ (x.1, u, x.2) ∈ el.contents := fun u x => by
    unfold inEdges
    simp only [List.mem_map, List.mem_filter, decide_eq_true_eq]
    constructor
    · rintro ⟨y, ⟨hy, rfl⟩, rfl⟩; exact hy
    · intro h; exact ⟨_, ⟨h, rfl⟩, rfl⟩
  choose! f hf1 hf2 using h5
  refine ⟨(List.range el.numVertices).map f, ?_, by simp, fun u x => ?_⟩
  · unfold adjacency rowsOf
    rw [h1, res_bind_ok, h3]
    exact mapM_ok_of_forall fun u hu => hf1 u (List.mem_range.1 hu)
  · rw [List.getD_eq_getElem?_getD, List.getElem?_map]
    rcases Nat.lt_or_ge u el.numVertices with hu | hu
    · rw [List.getElem?_range hu]
      show x ∈ f u ↔ _
      rw [(hf2 u hu).mem_iff]
      cases directed with
      | true =>
        simp only [if_true]
        split
        · exact mo u x
        · exact mi u x
      | false => simp only [Bool.false_eq_true, if_false, List.mem_append, mo, mi]
    · rw [List.getElem?_eq_none (by simpa using hu)]
      have h2 : (u, x.1, x.2) ∉ el.contents := fun h => by have := (hb _ h).1; simp at this; omega
      have h3 : (x.1, u, x.2) ∉ el.contents := fun h => by have := (hb _ h).2; simp at this; omega
      cases directed <;> simp [h2, h3]

/-! ## The hypergraph -/

theorem hypergraph_ok (w : Nat) (data : List (Record T N)) (ht : data.length < 2 ^ w) (hn : (data.flatMap Record.cast).length < 2 ^ w) :
    ∃ (titles : Dict T) (names : Dict N) (el : EdgeList Unit), hypergraph w data = .ok (titles, names, el) ∧ titles.Ok ∧ names.Ok ∧ el.Wf ∧ EndpointsBelow el.numVertices el.contents ∧
      el.numVertices < 2 ^ w ∧ el.isOpen = false ∧
      (∀ t a, Starred data t a → t ∈ titles.keys) ∧ (∀ a, a ∈ names.keys ↔ ∃ t, Starred data t a) ∧
      ∀ i j u, (i, j, u) ∈ el.contents ↔ ∃ t a, Starred data t a ∧ titles.keys.idxOf t = i ∧ names.keys.idxOf a = j := by
  -- the bound on the ids
  obtain ⟨B, hB, hBt, hBn⟩ : ∃ B, B < 2 ^ w ∧ data.length ≤ B ∧ (data.flatMap Record.cast).length ≤ B := ⟨max data.length (data.flatMap Record.cast).length, by omega, by omega, by omega⟩
  let Inv (ps : List (T × N)) (s : Dict T × Dict N × EdgeList Unit) : Prop :=
    s.1.Ok ∧ s.2.1.Ok ∧ (∀ x ∈ s.1.keys, x ∈ data.map Record.title) ∧ (∀ x ∈ s.2.1.keys, x ∈ ps.map Prod.snd) ∧ (∀ p ∈ ps, p.1 ∈ s.1.keys ∧ p.2 ∈ s.2.1.keys) ∧
      (∀ p ∈ ps, Starred data p.1 p.2) ∧ Good B s.2.2 (ps.map fun p => (s.1.keys.idxOf p.1, s.2.1.keys.idxOf p.2, ()))
  have lt : ∀ {l m : List T}, l.Nodup → (∀ x ∈ l, x ∈ m) → l.length ≤ m.length := fun h h' => (List.subperm_of_subset h h').length_le
  have ln : ∀ {l m : List N}, l.Nodup → (∀ x ∈ l, x ∈ m) → l.length ≤ m.length := fun h h' => (List.subperm_of_subset h h').length_le
  have cast_mem : ∀ t a, Starred data t a → a ∈ data.flatMap Record.cast := by
    rintro t a ⟨r, hr, -, ha⟩
    exact List.mem_flatMap.2 ⟨r, hr, ha⟩
  -- one record
  have step : ∀ r ∈ data, ∀ ps s, Inv ps s → ∃ s', recordStep w s r = .ok s' ∧ Inv (ps ++ r.cast.map fun a => (r.title, a)) s' := by
    rintro r hr ps ⟨titles, names, el⟩ ⟨i1, i2, i3, i4, i5, i6, i7⟩
    dsimp only at i1 i2 i3 i4 i5 i6 i7
    obtain ⟨titles', e1, e2, e3, e4, e5⟩ := enter_ok i1 r.title
    have e6 : ∀ x ∈ titles'.keys, x ∈ data.map Record.title := fun x hx => (e5 x hx).elim (i3 x) fun h => h ▸ List.mem_map_of_mem hr
    have e7 : titles'.keys.idxOf r.title < B := by
      have := List.idxOf_lt_length_of_mem e4
      have := lt e2.nodup e6
      simp at this
      omega
    have fold : ∃ p, r.cast.foldlM (castStep w titles' r.title) (names, el) = .ok p ∧ Inv (ps ++ r.cast.map fun a => (r.title, a)) (titles', p.1, p.2) := by
      refine foldlM_list_inv (fun (pre : List N) (p : Dict N × EdgeList Unit) => Inv (ps ++ pre.map fun a => (r.title, a)) (titles', p.1, p.2)) ?_ ?_
      · refine ⟨e2, i2, e6, by simpa using i4, fun p hp => ?_, by simpa using i6, ?_⟩
        · have := i5 p (by simpa using hp)
          exact ⟨e3.subset this.1, this.2⟩
        · have : (ps.map fun p => (titles'.keys.idxOf p.1, names.keys.idxOf p.2, ())) = ps.map fun p => (titles.keys.idxOf p.1, names.keys.idxOf p.2, ()) :=
            List.map_congr_left fun p hp => by rw [idxOf_prefix e3 (i5 p hp).1]
          simpa [this] using i7
      · rintro pre a post hl ⟨names, el⟩ ⟨k1, k2, k3, k4, k5, k6, k7⟩
        dsimp only at k1 k2 k3 k4 k5 k6 k7
        obtain ⟨names', f1, f2, f3, f4, f5⟩ := enter_ok k2 a
        have hstar : Starred data r.title a := ⟨r, hr, rfl, by simp [hl]⟩
        have f6 : ∀ x ∈ names'.keys, x ∈ data.flatMap Record.cast := fun x hx => (f5 x hx).elim (fun h => by
            obtain ⟨p, hp, rfl⟩ := List.mem_map.1 (k4 x h)
            exact cast_mem _ _ (k6 p hp)) fun h => h ▸ cast_mem _ _ hstar
        have f7 : names'.keys.idxOf a < B := by
          have := List.idxOf_lt_length_of_mem f4
          have := ln f2.nodup f6
          omega
        have hmap : (ps ++ pre.map fun a => (r.title, a)).map (fun p => (titles'.keys.idxOf p.1, names'.keys.idxOf p.2, ())) =
            (ps ++ pre.map fun a => (r.title, a)).map fun p => (titles'.keys.idxOf p.1, names.keys.idxOf p.2, ()) :=
          List.map_congr_left fun p hp => by rw [idxOf_prefix f3 (k5 p hp).2]
        rw [← hmap] at k7
        obtain ⟨el', g1, g2⟩ := k7.push hB e7 f7 ()
        refine ⟨(names', el'), ?_, k1, f2, k3, fun x hx => ?_, fun p hp => ?_, fun p hp => ?_, ?_⟩
        · unfold castStep
          dsimp only
          rw [f1, res_bind_ok, e2.lookup e4, f2.lookup f4, g1, res_bind_ok]; rfl
        · rcases f5 x hx with h | rfl
          · have := k4 x h
            simp only [List.map_append, List.map_map, List.mem_append] at this ⊢
            rcases this with h | h
            · exact .inl h
            · exact .inr (.inl h)
          · simp
        · rw [List.map_append, ← List.append_assoc] at hp
          rcases List.mem_append.1 hp with hp | hp
          · exact ⟨(k5 p hp).1, f3.subset (k5 p hp).2⟩
          · simp at hp
            subst hp
            exact ⟨e4, f4⟩
        · rw [List.map_append, ← List.append_assoc] at hp
          rcases List.mem_append.1 hp with hp | hp
          · exact k6 p hp
          · simp at hp
            subst hp
            exact hstar
        · have hps : ps ++ (pre ++ [a]).map (fun a => (r.title, a)) = (ps ++ pre.map fun a => (r.title, a)) ++ [(r.title, a)] := by simp
          rw [hps, List.map_append]
          exact g2
    obtain ⟨p, p1, p2⟩ := fold
    refine ⟨(titles', p.1, p.2), ?_, p2⟩
    unfold recordStep
    dsimp only
    rw [e1, res_bind_ok, p1, res_bind_ok]; rfl
  obtain ⟨s, s1, s2⟩ : ∃ s, data.foldlM (recordStep w) (Dict.empty, Dict.empty, (EdgeList.new 0).openForPushBack) = .ok s ∧ Inv (data.flatMap fun r => r.cast.map fun a => (r.title, a)) s := by
    refine foldlM_list_inv (fun (pre : List (Record T N)) s => Inv (pre.flatMap fun r => r.cast.map fun a => (r.title, a)) s) ?_ ?_
    · exact ⟨Dict.ok_empty, Dict.ok_empty, by simp [Dict.empty], by simp [Dict.empty], by simp, by simp, good_new B⟩
    · intro pre r post hl s hs
      obtain ⟨s', h1, h2⟩ := step r (by simp [hl]) _ s hs
      exact ⟨s', h1, by simpa [List.flatMap_append] using h2⟩
  obtain ⟨titles, names, el⟩ := s
  obtain ⟨i1, i2, i3, i4, i5, i6, i7⟩ := s2
  dsimp only at i1 i2 i3 i4 i5 i6 i7
  have mem : ∀ t a, (t, a) ∈ (data.flatMap fun r => r.cast.map fun a => (r.title, a)) ↔ Starred data t a := fun t a => by
    simp only [List.mem_flatMap, List.mem_map, Prod.mk.injEq, Starred]
    constructor
    · rintro ⟨r, hr, b, hb, rfl, rfl⟩; exact ⟨r, hr, rfl, hb⟩
    · rintro ⟨r, hr, rfl, hb⟩; exact ⟨r, hr, a, hb, rfl, rfl⟩
  refine ⟨titles, names, el.closeForPushBack, ?_, i1, i2, i7.wf, ?_, ?_, rfl, fun t a h => (i5 _ ((mem t a).2 h)).1, fun a => ⟨fun h => ?_, fun ⟨t, h⟩ => (i5 _ ((mem t a).2 h)).2⟩, fun i j u => ?_⟩
  · unfold hypergraph
    rw [s1, res_bind_ok]; rfl
  · have := i7.below
    rw [← i7.contents] at this
    exact this
  · exact Nat.lt_of_le_of_lt i7.card hB
  · obtain ⟨p, hp, rfl⟩ := List.mem_map.1 (i4 a h)
    exact ⟨p.1, i6 p hp⟩
  · show (i, j, u) ∈ el.contents ↔ _
    rw [i7.contents]
    simp only [List.mem_map, Prod.mk.injEq]
    constructor
    · rintro ⟨⟨t, a⟩, hp, rfl, rfl, -⟩; exact ⟨t, a, (mem t a).1 hp, rfl, rfl⟩
    · rintro ⟨t, a, h, rfl, rfl⟩; exact ⟨(t, a), (mem t a).2 h, rfl, rfl, trivial⟩

/-! ## The overlaps -/

theorem edge_iff {g : Rows Unit} {u v : Nat} : Edge g u v ↔ (v, ()) ∈ g.getD u [] := by
  unfold Edge nbrs
  rw [List.mem_map]
  constructor
  · rintro ⟨⟨x, y⟩, h, rfl⟩; exact h
  · intro h; exact ⟨_, h, rfl⟩

theorem overlap_ok {w B : Nat} (hB : B < 2 ^ w) (half : Bool) (G H : Rows Unit) (hG : InRange G) (hH : InRange H) (hlen : G.length = H.length) (hlt : G.length ≤ B) :
    ∃ el, overlap w half G H = .ok el ∧ el.Wf ∧ EndpointsBelow el.numVertices el.contents ∧
      ∀ i j k, (i, j, k) ∈ el.contents ↔ Edge H i k ∧ Edge G k j ∧ (half = true → i < j) := by
  have inner : ∀ i, i < H.length → ∀ k ∈ H.getD i [], ∀ el es, Good B el es → ∃ el', overlapTitle w half G i el k = .ok el' ∧
      Good B el' (es ++ (G.getD k.1 []).flatMap fun j => if half && !decide (i < j.1) then [] else [(i, j.1, k.1)]) := by
    intro i hi k hk el es hg
    have hkG : k.1 < G.length := by rw [hlen]; exact hH i k.1 (List.mem_map_of_mem hk)
    unfold overlapTitle
    rw [Bfs.vget_row hkG, res_bind_ok]
    refine foldlM_good _ (fun j hj el es hg => ?_) hg
    by_cases hc : (half && !decide (i < j.1)) = true
    · rw [if_pos hc, if_pos hc]
      exact ⟨el, rfl, by simpa using hg⟩
    · rw [if_neg hc, if_neg hc]
      have : j.1 < G.length := hG k.1 j.1 (List.mem_map_of_mem hj)
      exact hg.push hB (by omega) (by omega) _
  obtain ⟨el, e1, e2⟩ := foldlM_good (B := B) (f := fun el i => do
      let r ← vget H i
      r.foldlM (overlapTitle w half G i) el)
    (g := fun i => (H.getD i []).flatMap fun k => (G.getD k.1 []).flatMap fun j => if half && !decide (i < j.1) then [] else [(i, j.1, k.1)])
    (List.range H.length) (fun i hi el es hg => by
      have hi := List.mem_range.1 hi
      rw [Bfs.vget_row hi, res_bind_ok]
      exact foldlM_good _ (fun k hk el es hg => inner i hi k hk el es hg) hg) (good_new B)
  refine ⟨el.closeForPushBack, ?_, e2.wf, ?_, fun i j k => ?_⟩
  · unfold overlap
    rw [e1, res_bind_ok]; rfl
  · have := e2.below
    rw [← e2.contents] at this
    exact this
  · show (i, j, k) ∈ el.contents ↔ _
    rw [e2.contents, List.nil_append]
    simp only [List.mem_flatMap, List.mem_range]
    constructor
    · rintro ⟨i', hi, x, hx, y, hy, h⟩
      by_cases hc : (half && !decide (i' < y.1)) = true
      · rw [if_pos hc] at h; simp at h
      · rw [if_neg hc] at h
        simp at h
        obtain ⟨rfl, rfl, rfl⟩ := h
        refine ⟨List.mem_map_of_mem hx, List.mem_map_of_mem hy, fun hh => ?_⟩
        rw [hh] at hc
        simpa using hc
    · rintro ⟨h1, h2, h3⟩
      refine ⟨i, h1.src_lt, (k, ()), edge_iff.1 h1, (j, ()), edge_iff.1 h2, ?_⟩
      rw [if_neg]
      · simp
      · intro hc
        rw [Bool.and_eq_true] at hc
        have := h3 hc.1
        simp at hc
        omega

/-! ## The search -/

theorem search_ok {L : Rows Nat} {s : Nat} (hL : InRange L) (hs : s < L.length) {es : List (Nat × Nat × Nat)} (hes : Bfs.BfsEdges L s es) :
    ∃ f, es.foldlM note ⟨List.replicate L.length 0, List.replicate L.length 0, List.replicate L.length 0⟩ = .ok f ∧
      f.distance.length = L.length ∧ (∀ v d, IsDist L s v d → f.distance[v]? = some d) ∧
      (∀ v, Reachable L s v → v ≠ s → ∃ u k, f.parents[v]? = some u ∧ f.together[v]? = some k ∧ (v, k) ∈ L.getD u [] ∧ ∃ d, IsDist L s u d ∧ IsDist L s v (d + 1)) ∧
      (∀ v, v < L.length → ¬ Reachable L s v → f.distance[v]? = some 0 ∧ f.parents[v]? = some 0 ∧ f.together[v]? = some 0) := by
  obtain ⟨f, h1, h2⟩ := foldlM_list_inv (l := es) (f := note) (s := ⟨List.replicate L.length 0, List.replicate L.length 0, List.replicate L.length 0⟩)
    (fun pre f => f.distance.length = L.length ∧ f.parents.length = L.length ∧ f.together.length = L.length ∧
      (∀ e ∈ pre, f.parents[e.2.1]? = some e.1 ∧ f.together[e.2.1]? = some e.2.2 ∧ ∃ d, IsDist L s e.2.1 d ∧ f.distance[e.2.1]? = some d) ∧
      ∀ v, v < L.length → v ∉ pre.map (·.2.1) → f.distance[v]? = some 0 ∧ f.parents[v]? = some 0 ∧ f.together[v]? = some 0)
    ⟨by simp, by simp, by simp, by simp, fun v hv _ => by simp [hv]⟩ (by
      rintro pre ⟨u, v, k⟩ post hl f ⟨i1, i2, i3, i4, i5⟩
      obtain ⟨hmem, d, hd1, hd2⟩ := hes.edge (u, v, k) (by simp [hl])
      dsimp only at hmem hd1 hd2
      have hu : u < L.length := hd1.1.lt hL hs
      have hv : v < L.length := hd2.1.lt hL hs
      have hvp : v ∉ pre.map (·.2.1) := by
        have := hes.once
        rw [hl, List.map_append, List.nodup_append] at this
        exact fun h => this.2.2 v h v (by simp) rfl
      have hdu : f.distance[u]? = some d := by
        by_cases hup : u ∈ pre.map (·.2.1)
        · obtain ⟨e, he, rfl⟩ := List.mem_map.1 hup
          obtain ⟨-, -, d', h1, h2⟩ := i4 e he
          rw [h2, h1.unique hd1]
        · by_cases hus : u = s
          · subst hus
            have : d = 0 := by have := hd1.2 0 .nil; omega
            rw [this]
            exact (i5 u hu hup).1
          · exfalso
            have h3 := (hes.reach u).2 ⟨⟨d, hd1.1⟩, hus⟩
            rw [hl, List.map_append, List.map_cons] at h3
            rcases List.mem_append.1 h3 with h3 | h3
            · exact hup h3
            · rcases List.mem_cons.1 h3 with h3 | h3
              · dsimp only at h3
                subst h3
                have := hd1.unique hd2
                omega
              · obtain ⟨e, he, rfl⟩ := List.mem_map.1 h3
                have hso := hes.sorted
                rw [hl, List.pairwise_append, List.pairwise_cons] at hso
                have := hso.2.1.1 e he (d + 1) d hd2 hd1
                omega
      refine ⟨⟨f.distance.set v (d + 1), f.parents.set v u, f.together.set v k⟩, ?_, by simp [i1], by simp [i2], by simp [i3], ?_, ?_⟩
      · unfold note
        dsimp only
        rw [vget_eq_ok.2 hdu, res_bind_ok, vset_of_lt (by omega), res_bind_ok, vset_of_lt (by omega), res_bind_ok, vset_of_lt (by omega), res_bind_ok]; rfl
      · intro e he
        rcases List.mem_append.1 he with he | he
        · have hne : v ≠ e.2.1 := fun h => hvp (h ▸ List.mem_map_of_mem (f := fun e : Nat × Nat × Nat => e.2.1) he)
          simp only [List.getElem?_set_ne hne]
          exact i4 e he
        · simp at he
          subst he
          simp only [List.getElem?_set_self (by omega : v < f.distance.length), List.getElem?_set_self (by omega : v < f.parents.length), List.getElem?_set_self (by omega : v < f.together.length)]
          exact ⟨trivial, trivial, d + 1, hd2, rfl⟩
      · intro x hx hxn
        rw [List.map_append, List.mem_append, not_or] at hxn
        have hne : v ≠ x := fun h => hxn.2 (by simp [h])
        simp only [List.getElem?_set_ne hne]
        exact i5 x hx hxn.1)
  obtain ⟨h2, h3, h4, h5, h6⟩ := h2
  refine ⟨f, h1, h2, fun v d hd => ?_, fun v hr hne => ?_, fun v hv hr => ?_⟩
  · by_cases hvs : v = s
    · subst hvs
      have : d = 0 := by have := hd.2 0 .nil; omega
      rw [this]
      refine (h6 v hs fun h => ?_).1
      exact ((hes.reach v).1 h).2 rfl
    · obtain ⟨e, he, rfl⟩ := List.mem_map.1 ((hes.reach v).2 ⟨⟨d, hd.1⟩, hvs⟩)
      obtain ⟨-, -, d', k1, k2⟩ := h5 e he
      rw [k2, k1.unique hd]
  · obtain ⟨e, he, rfl⟩ := List.mem_map.1 ((hes.reach v).2 ⟨hr, hne⟩)
    obtain ⟨k1, k2, -⟩ := h5 e he
    obtain ⟨k3, k4⟩ := hes.edge e he
    exact ⟨e.1, e.2.2, k1, k2, k3, k4⟩
  · exact h6 v hv fun h => hr ((hes.reach v).1 h).1

end NW.Oracle
