import Verif.Model.SortBy
import Verif.Props.Build

/-!
# C99: the sorting helpers of edge lists

Sorting only rearranges the edges (with their properties); they come in the requested order; the stable variants keep the order of edges with equal keys; sorting lexically and then calling `uniq`
leaves exactly one edge for every pair of endpoints.
-/

namespace NW
open Spec

namespace EdgeList
variable {α : Type}

theorem byKey_true {idx : Nat} {a b : Nat × Nat × α} : byKey idx a b = true ↔ sortKey idx a < sortKey idx b := by simp [byKey]

theorem byKey_false {idx : Nat} {a b : Nat × Nat × α} : byKey idx a b = false ↔ sortKey idx b ≤ sortKey idx a := by simp [byKey]

theorem byKeys_true {idx : Nat} {a b : Nat × Nat × α} : byKeys idx a b = true ↔
    sortKey idx a < sortKey idx b ∨ (sortKey idx a = sortKey idx b ∧ sortKey ((idx + 1) % 2) a < sortKey ((idx + 1) % 2) b) := by
  simp only [byKeys, decide_eq_true_eq]
  omega

theorem byKeys_false {idx : Nat} {a b : Nat × Nat × α} : byKeys idx a b = false ↔
    sortKey idx b < sortKey idx a ∨ (sortKey idx a = sortKey idx b ∧ sortKey ((idx + 1) % 2) b ≤ sortKey ((idx + 1) % 2) a) := by
  rw [← Bool.not_eq_true, byKeys_true]
  omega

theorem sortKey_zero (x : Nat × Nat × α) : sortKey 0 x = x.1 := rfl
theorem sortKey_one (x : Nat × Nat × α) : sortKey 1 x = x.2.1 := rfl

/-- `el'` has the edges of `el`, rearranged, and is otherwise the same. -/
structure Rearranged (el el' : EdgeList α) : Prop where
  perm : el'.contents.Perm el.contents
  vertices : el'.numVertices = el.numVertices
  wf : el'.Wf
  isOpen : el'.isOpen = el.isOpen

theorem rearranged {lt : Nat × Nat × α → Nat × Nat × α → Bool} {srt : List (Nat × Nat × α) → List (Nat × Nat × α)} (hs : IsSort lt srt) (el : EdgeList α) :
    Rearranged el (el.withContents (srt el.edges)) ∧ (el.withContents (srt el.edges)).contents = srt el.contents := by
  obtain ⟨h1, h2, h3⟩ := withContents_contents el (srt el.edges)
  exact ⟨⟨by rw [h1]; exact hs.perm _, h3, h2, rfl⟩, h1⟩

/-- C99, `sort_by<idx>`: the edges are rearranged so that their sources (`idx = 0`) or targets (`idx = 1`) do not decrease. -/
theorem sort_by_correct (idx : Nat) {srt : List (Nat × Nat × α) → List (Nat × Nat × α)} (hs : IsSort (byKey idx) srt) (el : EdgeList α) :
    Rearranged el (el.sortBy srt) ∧ (el.sortBy srt).contents.Pairwise fun a b => if idx = 0 then a.1 ≤ b.1 else a.2.1 ≤ b.2.1 := by
  obtain ⟨h1, h2⟩ := rearranged hs el
  refine ⟨h1, ?_⟩
  unfold sortBy
  rw [h2]
  refine (hs.sorted el.contents).imp fun {a b} h => ?_
  have h := byKey_false.1 h
  simp only [sortKey] at h
  split <;> simp_all

/-- C99, `stable_sort_by<idx>`: as `sort_by`, and for every vertex the edges with this source (`idx = 0`) or target (`idx = 1`) are in the order in which they were. -/
theorem stable_sort_by_correct (idx : Nat) {srt : List (Nat × Nat × α) → List (Nat × Nat × α)} (hs : IsStableSort (byKey idx) srt) (el : EdgeList α) :
    Rearranged el (el.stableSortBy srt) ∧ ((el.stableSortBy srt).contents.Pairwise fun a b => if idx = 0 then a.1 ≤ b.1 else a.2.1 ≤ b.2.1) ∧
      ∀ u, (el.stableSortBy srt).contents.filter (fun e => decide ((if idx = 0 then e.1 else e.2.1) = u)) =
        el.contents.filter fun e => decide ((if idx = 0 then e.1 else e.2.1) = u) := by
  obtain ⟨h1, h2⟩ := sort_by_correct idx hs.toIsSort el
  refine ⟨h1, h2, fun u => ?_⟩
  have hc := (rearranged hs.toIsSort el).2
  unfold stableSortBy
  rw [hc]
  by_cases hu : ∃ x ∈ el.contents, (if idx = 0 then x.1 else x.2.1) = u
  · obtain ⟨x, _, hx⟩ := hu
    have := hs.stable el.contents x
    have e : (fun y : Nat × Nat × α => !byKey idx x y && !byKey idx y x) = fun e => decide ((if idx = 0 then e.1 else e.2.1) = u) := by
      funext y
      rw [Bool.eq_iff_iff]
      subst hx
      simp only [Bool.and_eq_true, Bool.not_eq_true', byKey_false, decide_eq_true_eq, sortKey]
      omega
    rw [e] at this
    exact this
  · have hn : ∀ x ∈ el.contents, ¬ (if idx = 0 then x.1 else x.2.1) = u := fun x hx h => hu ⟨x, hx, h⟩
    rw [List.filter_eq_nil_iff.2 (fun x hx => by simpa using hn x ((hs.perm _).mem_iff.1 hx)), List.filter_eq_nil_iff.2 (fun x hx => by simpa using hn x hx)]

/-- Lexicographic order by (target, source). -/
def ColexLe (x y : Nat × Nat × α) : Prop := x.2.1 < y.2.1 ∨ (x.2.1 = y.2.1 ∧ x.1 ≤ y.1)

/-- C99, `lexical_sort_by<idx>`: the edges are rearranged into lexicographic order by (source, target) (`idx = 0`) or by (target, source) (`idx = 1`), whatever the order of the properties is. -/
theorem lexical_sort_by_correct (idx : Nat) (lt : α → α → Bool) {srt : List (Nat × Nat × α) → List (Nat × Nat × α)} (hs : IsSort (lexicalLt lt idx) srt) (el : EdgeList α) :
    Rearranged el (el.lexicalSortBy srt) ∧ (el.lexicalSortBy srt).contents.Pairwise fun a b => if idx = 0 then LexLe a b else ColexLe a b := by
  obtain ⟨h1, h2⟩ := rearranged hs el
  refine ⟨h1, ?_⟩
  unfold lexicalSortBy
  rw [h2]
  refine (hs.sorted el.contents).imp fun {a b} h => ?_
  unfold lexicalLt at h
  split
  · rename_i hi
    rw [if_pos hi] at h
    simp only [tupleLt, Bool.or_eq_false_iff, decide_eq_false_iff_not, Bool.and_eq_false_iff, Bool.not_eq_false', decide_eq_true_eq] at h
    unfold LexLe
    omega
  · rename_i hi
    rw [if_neg hi] at h
    have h := byKeys_false.1 h
    simp only [sortKey_one, sortKey_zero, Nat.reduceAdd, Nat.reduceMod] at h
    unfold ColexLe
    omega

/-- C99, `lexical_stable_sort_by<idx>`: the edges are rearranged into this order, and edges with the same endpoints are in the order in which they were. -/
theorem lexical_stable_sort_by_correct (idx : Nat) (hidx : idx < 2) {srt : List (Nat × Nat × α) → List (Nat × Nat × α)} (hs : IsStableSort (byKeys idx) srt) (el : EdgeList α) :
    Rearranged el (el.lexicalStableSortBy srt) ∧ ((el.lexicalStableSortBy srt).contents.Pairwise fun a b => if idx = 0 then LexLe a b else ColexLe a b) ∧
      ∀ p, (el.lexicalStableSortBy srt).contents.filter (fun e => decide (ends e = p)) = el.contents.filter fun e => decide (ends e = p) := by
  obtain ⟨h1, h2⟩ := rearranged hs.toIsSort el
  refine ⟨h1, ?_, fun p => ?_⟩
  · unfold lexicalStableSortBy
    rw [h2]
    refine (hs.sorted el.contents).imp fun {a b} h => ?_
    have h := byKeys_false.1 h
    rcases (by omega : idx = 0 ∨ idx = 1) with rfl | rfl
    · simp only [sortKey_one, sortKey_zero, Nat.zero_add, Nat.reduceMod] at h
      simp only [↓reduceIte, LexLe]
      omega
    · simp only [sortKey_one, sortKey_zero, Nat.reduceAdd, Nat.reduceMod] at h
      simp only [Nat.one_ne_zero, ↓reduceIte, ColexLe]
      omega
  · unfold lexicalStableSortBy
    rw [h2]
    by_cases hu : ∃ x ∈ el.contents, ends x = p
    · obtain ⟨x, _, hx⟩ := hu
      have := hs.stable el.contents x
      have e : (fun y : Nat × Nat × α => !byKeys idx x y && !byKeys idx y x) = fun e => decide (ends e = p) := by
        funext y
        rw [Bool.eq_iff_iff]
        subst hx
        simp only [byKeys_false, ends, Bool.and_eq_true, Bool.not_eq_true', decide_eq_true_eq, Prod.mk.injEq]
        rcases (by omega : idx = 0 ∨ idx = 1) with rfl | rfl <;> simp only [sortKey_one, sortKey_zero, Nat.zero_add, Nat.reduceAdd, Nat.reduceMod] <;> omega
      rw [e] at this
      exact this
    · have hn : ∀ x ∈ el.contents, ¬ ends x = p := fun x hx h => hu ⟨x, hx, h⟩
      rw [List.filter_eq_nil_iff.2 (fun x hx => by simpa using hn x ((hs.perm _).mem_iff.1 hx)), List.filter_eq_nil_iff.2 (fun x hx => by simpa using hn x hx)]

/-! ## Sorting, then removing duplicates -/

theorem unique_flip (l : List (Nat × Nat × α)) : unique samePair (l.map flipEdge) = (unique samePair l).map flipEdge := by
  have hgo : ∀ (l : List (Nat × Nat × α)) x, uniqueGo samePair (flipEdge x) (l.map flipEdge) = (uniqueGo samePair x l).map flipEdge := by
    intro l
    induction l with
    | nil => intro x; rfl
    | cons y ys ih =>
      intro x
      have e : samePair (flipEdge x) (flipEdge y) = samePair x y := by
        simp only [samePair, flipEdge]
        rw [Bool.eq_iff_iff]
        simp [and_comm]
      simp only [List.map_cons, uniqueGo, e]
      split
      · exact ih x
      · rw [List.map_cons, ih y]
  cases l with
  | nil => rfl
  | cons x xs => exact hgo xs x

/-- `el'` has one edge of `el` for every pair of endpoints that occurs in `el`, and no other edges. -/
structure OneOfEach (el el' : EdgeList α) : Prop where
  subset : ∀ e ∈ el'.contents, e ∈ el.contents
  distinct : (el'.contents.map ends).Nodup
  all : ∀ e ∈ el.contents, ∃ e' ∈ el'.contents, ends e' = ends e
  vertices : el'.numVertices = el.numVertices

theorem one_of_each {idx : Nat} {el el' : EdgeList α} (h : Rearranged el el') (hs : el'.contents.Pairwise fun a b => if idx = 0 then LexLe a b else ColexLe a b) : OneOfEach el el'.uniq := by
  obtain ⟨hu, _, hv⟩ := withContents_contents el' (unique samePair el'.edges)
  have hu : el'.uniq.contents = unique samePair el'.contents := hu
  by_cases hi : idx = 0
  · simp only [hi, ↓reduceIte] at hs
    obtain ⟨h1, h2, h3, _, h4⟩ := uniq_correct el' hs
    refine ⟨fun e he => h.perm.mem_iff.1 (h1.subset he), ?_, fun e he => h3 e (h.perm.mem_iff.2 he), h4.trans h.vertices⟩
    rw [List.Nodup, List.pairwise_map]
    exact h2.imp fun h => h.2
  · simp only [hi, ↓reduceIte] at hs
    have hf : ∀ x : Nat × Nat × α, flipEdge (flipEdge x) = x := fun _ => rfl
    obtain ⟨h1, _, h3⟩ := withContents_contents el' (el'.contents.map flipEdge)
    have hs' : (el'.withContents (el'.contents.map flipEdge)).contents.Pairwise LexLe := by
      rw [h1, List.pairwise_map]
      exact hs.imp fun h => h
    obtain ⟨a, b, c, _, d⟩ := uniq_correct _ hs'
    have he : (el'.withContents (el'.contents.map flipEdge)).uniq.contents = el'.uniq.contents.map flipEdge := by
      rw [hu, ← unique_flip]
      obtain ⟨h5, _, _⟩ := withContents_contents (el'.withContents (el'.contents.map flipEdge)) (unique samePair (el'.withContents (el'.contents.map flipEdge)).edges)
      exact h5.trans (congrArg (unique samePair) h1)
    rw [he] at a b c
    rw [h1] at a c
    refine ⟨fun e hm => h.perm.mem_iff.1 ?_, ?_, fun e hm => ?_, hv.trans h.vertices⟩
    · have := a.subset (List.mem_map_of_mem hm)
      obtain ⟨x, hx, hxe⟩ := List.mem_map.1 this
      have : x = e := by rw [← hf x, hxe, hf]
      exact this ▸ hx
    · rw [List.Nodup, List.pairwise_map]
      rw [List.pairwise_map] at b
      refine b.imp fun {x y} hxy hh => hxy.2 ?_
      simp only [ends, flipEdge, Prod.mk.injEq] at hh ⊢
      exact ⟨hh.2, hh.1⟩
    · obtain ⟨z, hz, hze⟩ := c (flipEdge e) (List.mem_map_of_mem (h.perm.mem_iff.2 hm))
      obtain ⟨x, hx, rfl⟩ := List.mem_map.1 hz
      refine ⟨x, hx, ?_⟩
      simp only [ends, flipEdge, Prod.mk.injEq] at hze ⊢
      exact ⟨hze.2, hze.1⟩

/-- C99.  `lexical_sort_by<idx>(el); uniq(el)` leaves exactly one edge for every pair of endpoints, for both values of `idx`. -/
theorem lexical_sort_by_uniq (idx : Nat) (lt : α → α → Bool) {srt : List (Nat × Nat × α) → List (Nat × Nat × α)} (hs : IsSort (lexicalLt lt idx) srt) (el : EdgeList α) :
    OneOfEach el (el.lexicalSortBy srt).uniq := by
  obtain ⟨h1, h2⟩ := lexical_sort_by_correct idx lt hs el
  exact one_of_each h1 h2

/-- C99.  `lexical_stable_sort_by<idx>(el); uniq(el)` leaves exactly one edge for every pair of endpoints. -/
theorem lexical_stable_sort_by_uniq (idx : Nat) (hidx : idx < 2) {srt : List (Nat × Nat × α) → List (Nat × Nat × α)} (hs : IsStableSort (byKeys idx) srt) (el : EdgeList α) :
    OneOfEach el (el.lexicalStableSortBy srt).uniq := by
  obtain ⟨h1, h2, _⟩ := lexical_stable_sort_by_correct idx hidx hs el
  exact one_of_each h1 h2

/-! ## The contracts can be met: insertion sort -/

/-- Insert before the first element that is greater. -/
def insertBy {β : Type} (lt : β → β → Bool) (x : β) : List β → List β
  | [] => [x]
  | y :: ys => if lt y x then y :: insertBy lt x ys else x :: y :: ys

def insertionSort {β : Type} (lt : β → β → Bool) : List β → List β
  | [] => []
  | x :: xs => insertBy lt x (insertionSort lt xs)

theorem insertBy_perm {β : Type} (lt : β → β → Bool) (x : β) (l : List β) : (insertBy lt x l).Perm (x :: l) := by
  induction l with
  | nil => exact .refl _
  | cons y ys ih =>
    unfold insertBy
    split
    · exact (ih.cons y).trans (.swap _ _ _)
    · exact .refl _

/-- Insertion sort meets the contract of `std::stable_sort` for every strict weak order. -/
theorem insertionSort_stable {β : Type} {lt : β → β → Bool} (hirr : ∀ a, lt a a = false) (htr : ∀ a b c, lt a b = true → lt b c = true → lt a c = true)
    (heq : ∀ a b c, lt b a = false → lt c b = false → lt c a = false) : IsStableSort lt (insertionSort lt) := by
  have hperm : ∀ l, (insertionSort lt l).Perm l := by
    intro l
    induction l with
    | nil => exact .refl _
    | cons x xs ih => exact (insertBy_perm lt x _).trans (ih.cons x)
  refine ⟨⟨hperm, ?_⟩, ?_⟩
  · intro l
    induction l with
    | nil => exact .nil
    | cons x xs ih =>
      have : ∀ l : List β, l.Pairwise (fun a b => lt b a = false) → (insertBy lt x l).Pairwise fun a b => lt b a = false := by
        intro l hl
        induction l with
        | nil => exact List.pairwise_singleton _ _
        | cons y ys ih2 =>
          rw [List.pairwise_cons] at hl
          unfold insertBy
          split
          · rename_i hlt
            rw [List.pairwise_cons]
            refine ⟨fun z hz => ?_, ih2 hl.2⟩
            rcases List.mem_cons.1 ((insertBy_perm lt x ys).mem_iff.1 hz) with rfl | hz
            · cases h : lt z y
              · rfl
              · have := htr _ _ _ hlt h
                rw [hirr] at this
                cases this
            · exact hl.1 z hz
          · rename_i hlt
            have hlt : lt y x = false := by simpa using hlt
            rw [List.pairwise_cons, List.pairwise_cons]
            refine ⟨fun z hz => ?_, hl.1, hl.2⟩
            rcases List.mem_cons.1 hz with rfl | hz
            · exact hlt
            · exact heq _ _ _ hlt (hl.1 z hz)
      exact this _ ih
  · intro l x
    induction l with
    | nil => rfl
    | cons a l ih =>
      have hins : ∀ l : List β, (insertBy lt a l).filter (fun y => !lt x y && !lt y x) = (a :: l).filter fun y => !lt x y && !lt y x := by
        intro l
        induction l with
        | nil => rfl
        | cons y ys ih2 =>
          unfold insertBy
          split
          · rename_i hlt
            rw [List.filter_cons, ih2, List.filter_cons (x := a) (xs := y :: ys), List.filter_cons (x := y) (xs := ys), List.filter_cons (x := a) (xs := ys)]
            by_cases ha : (!lt x a && !lt a x) = true
            · by_cases hy : (!lt x y && !lt y x) = true
              · exfalso
                simp only [Bool.and_eq_true, Bool.not_eq_true'] at ha hy
                have := heq _ _ _ ha.1 hy.2
                rw [hlt] at this
                cases this
              · simp [ha, hy]
            · by_cases hy : (!lt x y && !lt y x) = true <;> simp [ha, hy]
          · rfl
      unfold insertionSort
      rw [hins, List.filter_cons, List.filter_cons, ih]

theorem byKey_stable (idx : Nat) : IsStableSort (byKey idx) (insertionSort (byKey (α := α) idx)) := by
  refine insertionSort_stable ?_ ?_ ?_
  · intro a; simp only [byKey_false]; omega
  · intro a b c; simp only [byKey_true]; omega
  · intro a b c; simp only [byKey_false]; omega

theorem byKeys_stable (idx : Nat) : IsStableSort (byKeys idx) (insertionSort (byKeys (α := α) idx)) := by
  refine insertionSort_stable ?_ ?_ ?_
  · intro a; exact byKeys_false.2 (.inr ⟨rfl, Nat.le_refl _⟩)
  · intro a b c; simp only [byKeys_true]; omega
  · intro a b c; simp only [byKeys_false]; omega

/-- Sorting by one endpoint only is not enough for `uniq`: two copies of an edge can survive. -/
theorem sort_by_uniq_keeps_duplicates : ∃ (srt : List (Nat × Nat × Unit) → List (Nat × Nat × Unit)) (el : EdgeList Unit),
    IsSort (byKey 0) srt ∧ (el.sortBy srt).uniq.contents = [(0, 1, ()), (0, 2, ()), (0, 1, ())] :=
  ⟨insertionSort (byKey 0), ⟨3, false, [0, 0, 0], [1, 2, 1], [(), (), ()]⟩, (byKey_stable 0).toIsSort, by decide⟩

/-- Five edges, two of them parallel. -/
def sortExample : EdgeList Nat := ⟨4, false, [3, 1, 1, 0, 1], [0, 2, 2, 1, 0], [10, 11, 12, 13, 14]⟩

example : IsStableSort (byKey 1) (insertionSort (byKey (α := Nat) 1)) ∧ (sortExample.stableSortBy (insertionSort (byKey 1))).contents = [(3, 0, 10), (1, 0, 14), (0, 1, 13), (1, 2, 11), (1, 2, 12)] :=
  ⟨byKey_stable 1, by decide⟩

example : IsStableSort (byKeys 0) (insertionSort (byKeys (α := Nat) 0)) ∧ (sortExample.lexicalStableSortBy (insertionSort (byKeys 0))).uniq.contents = [(0, 1, 13), (1, 0, 14), (1, 2, 11), (3, 0, 10)] :=
  ⟨byKeys_stable 0, by decide⟩

/-- The order of tuples, with the order of the properties. -/
example : IsSort (lexicalLt (fun a b : Nat => decide (b < a)) 0) (insertionSort (lexicalLt (fun a b : Nat => decide (b < a)) 0)) ∧
    (sortExample.lexicalSortBy (insertionSort (lexicalLt (fun a b : Nat => decide (b < a)) 0))).contents = [(0, 1, 13), (1, 0, 14), (1, 2, 12), (1, 2, 11), (3, 0, 10)] := by
  refine ⟨(insertionSort_stable ?_ ?_ ?_).toIsSort, by decide⟩
  · intro a; simp [lexicalLt, tupleLt]
  · intro a b c
    simp only [lexicalLt, ↓reduceIte, tupleLt, Bool.or_eq_true, Bool.and_eq_true, Bool.not_eq_true', decide_eq_true_eq, decide_eq_false_iff_not]
    omega
  · intro a b c
    simp only [lexicalLt, ↓reduceIte, tupleLt, Bool.or_eq_false_iff, Bool.and_eq_false_iff, Bool.not_eq_false', decide_eq_true_eq, decide_eq_false_iff_not]
    omega

/-! ## The dispatch at run time -/

/-- C99.  `swap_to_triangular<idx>(el, cessor)` with a value known at run time does what the version with a template argument does; any other value leaves the list alone. -/
theorem swap_to_triangular_dyn (idx : Nat) (el : EdgeList α) :
    (∀ c, swapToTriangularDyn idx (some c) el = swapToTriangular idx c el) ∧ swapToTriangularDyn idx none el = el :=
  ⟨fun c => by cases c <;> rfl, rfl⟩

end EdgeList

/-! ## Loops of independent writes -/

/-- Writing `f i` to position `i` for every `i` of a list, in whatever order. -/
theorem foldlM_writes {β : Type} {step : List β → Nat → Res (List β)} {f : Nat → β} {n : Nat} (is : List Nat) (out : List β) (hn : out.length = n)
    (hstep : ∀ i ∈ is, ∀ out : List β, out.length = n → step out i = .ok (out.set i (f i))) :
    ∃ out', is.foldlM step out = .ok out' ∧ out'.length = n ∧ ∀ i < n, out'[i]? = if i ∈ is then some (f i) else out[i]? := by
  induction is generalizing out with
  | nil => exact ⟨out, rfl, hn, fun i _ => by simp⟩
  | cons a is ih =>
    obtain ⟨out', h1, h2, h3⟩ := ih (out.set a (f a)) (by simpa using hn) fun i hi => hstep i (by simp [hi])
    refine ⟨out', ?_, h2, fun i hi => ?_⟩
    · rw [List.foldlM_cons, hstep a (by simp) out hn, res_bind_ok, h1]
    · rw [h3 i hi]
      by_cases hm : i ∈ is
      · simp [hm]
      · by_cases ha : a = i
        · subst ha
          simp [hm, hn, hi]
        · have : ¬ i = a := fun h => ha h.symm
          simp [hm, ha, this]

/-- C99, `permute`: in whatever order the iterations run, position `i` of the second vector gets what is at position `perm[i]` of the first, and the rest of the second vector is unchanged; this needs the
entries of `perm` to be positions of the first vector and the second vector to be at least as long as `perm`. -/
theorem permute_correct {β : Type} (sched : List Nat → List Nat) (hs : IsSchedule sched) (vec1 vec2 : List β) (perm : List Nat) (h1 : ∀ j ∈ perm, j < vec1.length) (h2 : perm.length ≤ vec2.length) :
    ∃ out, permuteVec sched vec1 vec2 perm = .ok out ∧ out.length = vec2.length ∧
      ∀ i < vec2.length, out[i]? = if h : i < perm.length then vec1[perm[i]]? else vec2[i]? := by
  cases vec1 with
  | nil =>
    have hp : perm = [] := List.eq_nil_iff_forall_not_mem.2 fun j hj => by simpa using h1 j hj
    subst hp
    have : sched (List.range ([] : List Nat).length) = [] := by
      have := hs (List.range ([] : List Nat).length)
      simpa using this
    exact ⟨vec2, by unfold permuteVec; rw [this]; rfl, rfl, fun i _ => by simp⟩
  | cons x xs =>
    obtain ⟨out, a, b, c⟩ := foldlM_writes (step := fun out i => do
        let j ← vget perm i
        let x ← vget (x :: xs) j
        vset out i x) (f := fun i => ((x :: xs)[perm.getD i 0]?).getD x) (sched (List.range perm.length)) vec2 rfl (by
      intro i hi out ho
      have hi : i < perm.length := by simpa using (hs _).mem_iff.1 hi
      have hj := h1 perm[i] (List.getElem_mem hi)
      rw [vget_of_lt hi, res_bind_ok, vget_of_lt hj, res_bind_ok, vset_of_lt (by omega)]
      simp only [List.getD_eq_getElem?_getD, List.getElem?_eq_getElem hi, Option.getD_some, List.getElem?_eq_getElem hj])
    refine ⟨out, a, b, fun i hi => ?_⟩
    rw [c i hi]
    have hm : i ∈ sched (List.range perm.length) ↔ i < perm.length := by rw [(hs _).mem_iff]; simp
    by_cases hp : i < perm.length
    · have hj := h1 perm[i] (List.getElem_mem hp)
      simp only [hm, hp, ↓reduceIte, ↓reduceDIte]
      rw [List.getD_eq_getElem?_getD, List.getElem?_eq_getElem hp, Option.getD_some, List.getElem?_eq_getElem hj, Option.getD_some]
    · simp [hm, hp]

/-- C99, `degrees(graph)`: in whatever order the iterations run, the result is the list of the numbers of entries of the rows, converted to the vertex id type. -/
theorem graph_degrees_correct {α : Type} (w : Nat) (sched : List Nat → List Nat) (hs : IsSchedule sched) (g : Vov α) :
    graphDegrees w sched g = .ok (g.map fun r => r.length % 2 ^ w) := by
  obtain ⟨out, a, b, c⟩ := foldlM_writes (step := fun out i => do
      let r ← vget g i
      vset out i (r.length % 2 ^ w)) (f := fun i => (g.getD i []).length % 2 ^ w) (sched (List.range g.length)) (List.replicate g.length 0) (n := g.length) (by simp) (by
    intro i hi out ho
    have hi : i < g.length := by simpa using (hs _).mem_iff.1 hi
    rw [vget_of_lt hi, res_bind_ok, vset_of_lt (by omega)]
    simp [hi])
  unfold graphDegrees
  rw [a]
  congr 1
  apply List.ext_getElem?
  intro i
  rcases Nat.lt_or_ge i g.length with hi | hi
  · rw [c i hi, if_pos (by rw [(hs _).mem_iff]; simpa using hi)]
    simp [hi]
  · simp [hi, b]

example : IsSchedule (List.reverse : List Nat → List Nat) ∧ permuteVec List.reverse [10, 11, 12] [0, 0, 0, 7] [2, 0, 1] = .ok [12, 10, 11, 7] := ⟨fun l => l.reverse_perm, rfl⟩

example : graphDegrees 32 List.reverse [[(1, ()), (2, ())], [], [(0, ())]] = .ok [2, 0, 1] := rfl

end NW
