import Verif.Lemmas.Overlap

/-!
# C125: the overlaps that the example for hypergraphs finds

# C126: what `delink` takes out of a link
-/

namespace NW.Oracle
open Spec

/-- The order in which the threads enter the critical section does not matter: the list of overlaps has every pair `i < j` that share at least `s` entries exactly once, and nothing else. -/
theorem overlap_list (o : Csr.Oracles Unit) (ho : o.Ok) (sched : List Nat → List Nat) (hs : IsSchedule sched) (w s : Nat) (hs0 : 0 < s) (edges : EdgeList Unit) (hw : edges.Wf)
    (hb : EndpointsBelow edges.numVertices edges.contents) (hn : edges.numVertices < 2 ^ w) :
    ∃ H G el, adjacency o true 0 edges = .ok H ∧ adjacency o true 1 edges = .ok G ∧ overlapAtLeast sched w s G H = .ok el ∧ el.Wf ∧ EndpointsBelow el.numVertices el.contents ∧
      el.contents.Nodup ∧ ∀ i j, (i, j, ()) ∈ el.contents ↔ i < j ∧ s ≤ shared edges.contents i j := by
  obtain ⟨H, h1, h2, h3⟩ := adjacency_perm o ho true 0 (by decide) edges hw hb
  obtain ⟨G, g1, g2, g3⟩ := adjacency_perm o ho true 1 (by decide) edges hw hb
  simp only [if_true] at h3
  simp only [if_true, Nat.one_ne_zero, if_false] at g3
  have hR : InRange H := fun u v h => by
    obtain ⟨x, hx, rfl⟩ := List.mem_map.1 h
    have := (h3 u).mem_iff.1 hx
    unfold outEdges at this
    simp only [List.mem_map, List.mem_filter] at this
    obtain ⟨y, ⟨hy, -⟩, rfl⟩ := this
    rw [h2]; exact (hb y hy).2
  have gR : InRange G := fun u v h => by
    obtain ⟨x, hx, rfl⟩ := List.mem_map.1 h
    have := (g3 u).mem_iff.1 hx
    unfold inEdges at this
    simp only [List.mem_map, List.mem_filter] at this
    obtain ⟨y, ⟨hy, -⟩, rfl⟩ := this
    rw [g2]; exact (hb y hy).1
  obtain ⟨el, e1, e2, e3, e4, e5⟩ := overlapAtLeast_ok sched hs hn s hs0 G H gR hR (by rw [g2, h2]) (Nat.le_of_eq g2)
  refine ⟨H, G, el, h1, g1, e1, e2, e3, e4, fun i j => ?_⟩
  rw [e5, count_shared h3 g3]

/-- C125. For every order in which the threads enter the critical section: in the graph that the example ends with the neighbours of `i` are those `j ≠ i` that share at least two
entries with `i`, each once. -/
theorem dns_overlap (o : Csr.Oracles Unit) (ho : o.Ok) (sched : List Nat → List Nat) (hs : IsSchedule sched) (w : Nat) (edges : EdgeList Unit) (hw : edges.Wf)
    (hb : EndpointsBelow edges.numVertices edges.contents) (hn : edges.numVertices < 2 ^ w) :
    ∃ L, dns o sched w edges = .ok L ∧ (∀ i, (nbrs L i).Nodup) ∧ ∀ i j, Edge L i j ↔ i ≠ j ∧ 2 ≤ shared edges.contents i j := by
  obtain ⟨H, G, el, h1, h2, h3, h4, h5, h6, h7⟩ := overlap_list o ho sched hs w 2 (by decide) edges hw hb hn
  obtain ⟨L, l1, l2, l3⟩ := adjacency_perm o ho false 0 (by decide) el h4 h5
  simp only [Bool.false_eq_true, if_false] at l3
  refine ⟨L, ?_, fun i => ?_, fun i j => ?_⟩
  · unfold dns
    rw [h1, res_bind_ok, h2, res_bind_ok, h3, res_bind_ok, l1]
  · unfold nbrs
    rw [((l3 i).map _).nodup_iff, List.map_append, List.nodup_append]
    unfold outEdges inEdges
    rw [List.map_map, List.map_map]
    refine ⟨?_, ?_, ?_⟩
    · refine List.Nodup.map_on ?_ (h6.filter _)
      rintro ⟨a, b, ⟨⟩⟩ hx ⟨a', b', ⟨⟩⟩ hy h
      simp only [List.mem_filter, decide_eq_true_eq, Function.comp_apply] at hx hy h
      rw [hx.2, hy.2, h]
    · refine List.Nodup.map_on ?_ (h6.filter _)
      rintro ⟨a, b, ⟨⟩⟩ hx ⟨a', b', ⟨⟩⟩ hy h
      simp only [List.mem_filter, decide_eq_true_eq, Function.comp_apply] at hx hy h
      rw [hx.2, hy.2, h]
    · intro a ha b hb' hab
      simp only [List.mem_map, List.mem_filter, decide_eq_true_eq, Function.comp_apply] at ha hb'
      obtain ⟨⟨a1, a2, ⟨⟩⟩, ⟨ha, ha'⟩, haa⟩ := ha
      obtain ⟨⟨b1, b2, ⟨⟩⟩, ⟨hb1, hb'⟩, hbb⟩ := hb'
      have p := ((h7 _ _).1 ha).1
      have q := ((h7 _ _).1 hb1).1
      dsimp only at ha' haa hb' hbb
      omega
  · have he : Edge L i j ↔ (i, j, ()) ∈ el.contents ∨ (j, i, ()) ∈ el.contents := by
      rw [edge_iff, (l3 i).mem_iff, List.mem_append]
      unfold outEdges inEdges
      simp only [List.mem_map, List.mem_filter, decide_eq_true_eq]
      constructor
      · rintro (⟨⟨a, b, ⟨⟩⟩, ⟨h, ha⟩, hb⟩ | ⟨⟨a, b, ⟨⟩⟩, ⟨h, ha⟩, hb⟩)
        · simp only [Prod.mk.injEq, and_true] at ha hb; subst ha hb; exact .inl h
        · simp only [Prod.mk.injEq, and_true] at ha hb; subst ha hb; exact .inr h
      · rintro (h | h)
        · exact .inl ⟨_, ⟨h, rfl⟩, rfl⟩
        · exact .inr ⟨_, ⟨h, rfl⟩, rfl⟩
    rw [he, h7, h7, shared_comm _ j i]
    constructor
    · rintro (⟨h, h'⟩ | ⟨h, h'⟩)
      · exact ⟨by omega, h'⟩
      · exact ⟨by omega, h'⟩
    · rintro ⟨h, h'⟩
      rcases Nat.lt_or_gt_of_ne h with h | h
      · exact .inl ⟨h, h'⟩
      · exact .inr ⟨h, h'⟩

/-- Two rows that share two entries, and one that shares only one with them. -/
example : let es := [(0, 0, ()), (0, 1, ()), (1, 0, ()), (1, 1, ()), (2, 1, ())]; shared es 0 1 = 2 ∧ shared es 0 2 = 1 ∧ shared es 1 0 = 2 := by decide

/-- If no entry occurs twice, what `i` and `j` share is the number of common second numbers. -/
theorem shared_nodup (es : List (Nat × Nat × Unit)) (h : es.Nodup) (i j : Nat) : shared es i j = ((es.filter fun e => decide (e.1 = i)).filter fun e => decide ((j, e.2.1, ()) ∈ es)).length := by
  unfold shared
  generalize es.filter (fun e => decide (e.1 = i)) = l
  induction l with
  | nil => rfl
  | cons e l ih =>
    rw [List.map_cons, List.sum_cons, ih, List.filter_cons]
    have : (es.filter fun f => decide (f.1 = j) && decide (f.2.1 = e.2.1)).length = if (j, e.2.1, ()) ∈ es then 1 else 0 := by
      have e1 : (es.filter fun f => decide (f.1 = j) && decide (f.2.1 = e.2.1)) = es.filter fun f => f == (j, e.2.1, ()) := by
        refine List.filter_congr fun f _ => ?_
        obtain ⟨a, b, ⟨⟩⟩ := f
        by_cases h1 : a = j <;> by_cases h2 : b = e.2.1 <;> simp [h1, h2]
      rw [e1, ← List.countP_eq_length_filter, ← List.count_eq_countP, h.count]
    rw [this]
    by_cases hm : (j, e.2.1, ()) ∈ es
    · simp [hm]; omega
    · simp [hm]

/-! ## delink -/

theorem findSub_none {pat s : List Char} (h : ¬ pat <:+: s) : findSub pat s = none := by
  induction s with
  | nil =>
    unfold findSub
    rw [if_neg]
    rintro rfl
    exact h (List.infix_refl _)
  | cons c s ih =>
    unfold findSub
    rw [if_neg, ih]
    · rfl
    · exact fun h' => h (h'.trans (List.suffix_cons c s).isInfix)
    · exact fun h' => h (List.isPrefixOf_iff_prefix.1 h').isInfix

theorem findSub_pair {c : Char} (a b : List Char) (h : ¬ [c, c] <:+: a ++ [c]) : findSub [c, c] (a ++ c :: c :: b) = some a.length := by
  induction a with
  | nil => simp [findSub]
  | cons x a ih =>
    show findSub [c, c] (x :: (a ++ c :: c :: b)) = _
    unfold findSub
    rw [if_neg, ih (fun h' => h (h'.trans (List.suffix_cons x (a ++ [c])).isInfix))]
    · rfl
    · intro h'
      apply h
      cases a with
      | nil => simp at h'; subst h'; exact List.infix_refl _
      | cons y a =>
        simp at h'
        obtain ⟨rfl, rfl⟩ := h'
        exact ⟨[], a ++ [c], by simp⟩

theorem findSub_one {c : Char} (a b : List Char) (h : c ∉ a) : findSub [c] (a ++ c :: b) = some a.length := by
  induction a with
  | nil => simp [findSub]
  | cons x a ih =>
    show findSub [c] (x :: (a ++ c :: b)) = _
    unfold findSub
    rw [if_neg, ih (fun h' => h (by simp [h']))]
    · rfl
    · simp; rintro rfl; exact h (by simp)

theorem not_infix_one {c : Char} {s : List Char} (h : c ∉ s) : ¬ [c] <:+: s := fun h' => h (h'.subset (by simp))

/-- `]]` in a text that begins with anything in which there is none, then `[[`. -/
theorem findSub_close (pre body post : List Char) (h1 : ¬ [']', ']'] <:+: pre) (h2 : ¬ [']', ']'] <:+: body ++ [']']) :
    findSub [']', ']'] (pre ++ '[' :: '[' :: (body ++ ']' :: ']' :: post)) = some (pre.length + 2 + body.length) := by
  induction pre with
  | nil =>
    show findSub [']', ']'] ('[' :: '[' :: (body ++ ']' :: ']' :: post)) = _
    unfold findSub; rw [if_neg (by simp)]
    unfold findSub; rw [if_neg (by simp), findSub_pair _ _ h2]
    simp; omega
  | cons x pre ih =>
    show findSub [']', ']'] (x :: (pre ++ '[' :: '[' :: (body ++ ']' :: ']' :: post))) = _
    unfold findSub
    rw [if_neg, ih (fun h' => h1 (h'.trans (List.suffix_cons x pre).isInfix))]
    · simp; omega
    · intro h'
      apply h1
      cases pre with
      | nil => simp at h'
      | cons y pre =>
        simp at h'
        obtain ⟨rfl, rfl⟩ := h'
        exact ⟨[], pre, by simp⟩

/-- What is between the brackets. -/
theorem delink_inner (pre body post : List Char) (h1 : ¬ ['[', '['] <:+: pre ++ ['[']) (h2 : ¬ [']', ']'] <:+: pre) (h3 : ¬ [']', ']'] <:+: body ++ [']']) :
    delink (pre ++ '[' :: '[' :: (body ++ ']' :: ']' :: post)) = match findSub ['|'] body with | none => body | some bar => body.drop (bar + 1) := by
  unfold delink
  rw [findSub_pair _ _ h1]
  dsimp only
  rw [findSub_close _ _ _ h2 h3]
  dsimp only
  rw [if_pos (by omega)]
  have : ((pre ++ '[' :: '[' :: (body ++ ']' :: ']' :: post)).drop (pre.length + 2)).take (pre.length + 2 + body.length - pre.length - 2) = body := by
    rw [List.drop_append, List.drop_eq_nil_of_le (by omega)]
    simp [show pre.length + 2 + body.length - pre.length - 2 = body.length by omega]
  rw [this]
  cases findSub ['|'] body <;> rfl

/-- C126, part 1. A text without `[[` is returned as it is. -/
theorem delink_plain (s : List Char) (h : ¬ ['[', '['] <:+: s) : delink s = s := by
  unfold delink
  rw [findSub_none h]

/-- C126, part 2. Of a link to a page its name is returned: from `…[[page]]…`, with no `[[` or `]]` before it, `page`. -/
theorem delink_page (pre page post : List Char) (h1 : ¬ ['[', '['] <:+: pre ++ ['[']) (h2 : ¬ [']', ']'] <:+: pre) (h3 : ¬ [']', ']'] <:+: page ++ [']']) (h4 : '|' ∉ page) :
    delink (pre ++ '[' :: '[' :: (page ++ ']' :: ']' :: post)) = page := by
  rw [delink_inner pre page post h1 h2 h3, findSub_none (not_infix_one h4)]

/-- C126, part 3. Of a link with a text the text is returned: from `…[[page|text]]…` it is `text`. -/
theorem delink_text (pre page text post : List Char) (h1 : ¬ ['[', '['] <:+: pre ++ ['[']) (h2 : ¬ [']', ']'] <:+: pre) (h3 : ¬ [']', ']'] <:+: page ++ '|' :: text ++ [']']) (h4 : '|' ∉ page) :
    delink (pre ++ '[' :: '[' :: (page ++ '|' :: text ++ ']' :: ']' :: post)) = text := by
  rw [delink_inner pre (page ++ '|' :: text) post h1 h2 h3, findSub_one _ _ h4]
  simp

/-- C126 fails if there is a `]]` before the link: the link then runs to the end of the text, with the `]]` that closes it and all that follows. -/
theorem delink_early_close (pre pre' page post : List Char) (h1 : ¬ ['[', '['] <:+: pre ++ ']' :: ']' :: pre' ++ ['[']) (h2 : ¬ [']', ']'] <:+: pre ++ [']']) (h4 : '|' ∉ page ++ ']' :: ']' :: post) :
    delink (pre ++ ']' :: ']' :: pre' ++ '[' :: '[' :: (page ++ ']' :: ']' :: post)) = page ++ ']' :: ']' :: post := by
  unfold delink
  rw [findSub_pair _ _ h1]
  dsimp only
  rw [show pre ++ ']' :: ']' :: pre' ++ '[' :: '[' :: (page ++ ']' :: ']' :: post) = pre ++ ']' :: ']' :: (pre' ++ '[' :: '[' :: (page ++ ']' :: ']' :: post)) by simp, findSub_pair _ _ h2]
  dsimp only
  rw [if_neg (by simp; omega)]
  have : (pre ++ ']' :: ']' :: (pre' ++ '[' :: '[' :: (page ++ ']' :: ']' :: post))).drop ((pre ++ ']' :: ']' :: pre').length + 2) = page ++ ']' :: ']' :: post := by
    rw [show pre ++ ']' :: ']' :: (pre' ++ '[' :: '[' :: (page ++ ']' :: ']' :: post)) = (pre ++ ']' :: ']' :: pre') ++ '[' :: '[' :: (page ++ ']' :: ']' :: post) by simp, List.drop_append]
    simp
  rw [this, findSub_none (not_infix_one h4)]

/-- C126 fails if the closing `]]` is missing: the test for it looks at the opening `[[` again, and no ` hm` is appended. -/
theorem delink_no_close (pre page : List Char) (h1 : ¬ ['[', '['] <:+: pre ++ ['[']) (h2 : ¬ [']', ']'] <:+: pre ++ '[' :: '[' :: page) (h4 : '|' ∉ page) : delink (pre ++ '[' :: '[' :: page) = page := by
  unfold delink
  rw [findSub_pair _ _ h1]
  dsimp only
  rw [findSub_none h2]
  dsimp only
  have : (pre ++ '[' :: '[' :: page).drop (pre.length + 2) = page := by
    rw [List.drop_append]
    simp
  rw [this, findSub_none (not_infix_one h4)]

example : delink "see [[Some Film (1990 film)|Some Film]] (1990)".toList = "Some Film".toList := by decide +kernel
example : delink "[[Some Film]]".toList = "Some Film".toList := by decide +kernel
example : delink "x]] [[Some Film]] (1990)".toList = "Some Film]] (1990)".toList := by decide +kernel

end NW.Oracle
