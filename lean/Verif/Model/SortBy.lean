import Verif.Model.Build

/-!
# Model of the sorting helpers of build.hpp: 46-80, 142-149, 385-405, 446-456

`std::sort` and `std::stable_sort` are parameters described by their contracts; that sorting the iterators of an edge list (a struct of arrays) does to the columns what sorting does to an array of
tuples is `NW.Zip.zip_sort` (C98).  `idx` is 0 or 1 (the endpoints; the library also allows sorting by a property).
-/

namespace NW

/-- The contract of `std::stable_sort`: in addition, elements of which neither is less than the other keep their order. -/
structure IsStableSort {β : Type} (lt : β → β → Bool) (srt : List β → List β) : Prop extends IsSort lt srt where
  stable : ∀ l x, (srt l).filter (fun y => !lt x y && !lt y x) = l.filter fun y => !lt x y && !lt y x

namespace EdgeList
variable {α : Type}

/-- `std::get<idx>(a)`. -/
def sortKey (idx : Nat) (x : Nat × Nat × α) : Nat := if idx = 0 then x.1 else x.2.1

/-- The comparator of `sort_by` and `stable_sort_by`: build.hpp:49, 54. -/
def byKey (idx : Nat) (a b : Nat × Nat × α) : Bool := decide (sortKey idx a < sortKey idx b)

/-- The comparator of `lexical_stable_sort_by` and of `lexical_sort_by<1>`: build.hpp:66-68, 77-79; `jdx = (idx + 1) % 2`. -/
def byKeys (idx : Nat) (a b : Nat × Nat × α) : Bool :=
  let jdx := (idx + 1) % 2
  decide (sortKey idx a < sortKey idx b ∨ (¬ sortKey idx b < sortKey idx a ∧ sortKey jdx a < sortKey jdx b))

/-- `operator<` of tuples (source, target, properties), used by `lexical_sort_by<0>`: build.hpp:64; `lt` is `operator<` of the tuple of the properties. -/
def tupleLt (lt : α → α → Bool) (a b : Nat × Nat × α) : Bool :=
  decide (a.1 < b.1) || (!decide (b.1 < a.1) && (decide (a.2.1 < b.2.1) || (!decide (b.2.1 < a.2.1) && lt a.2.2 b.2.2)))

/-- `sort_by<idx>(el)`: build.hpp:46-50. -/
def sortBy (srt : List (Nat × Nat × α) → List (Nat × Nat × α)) (el : EdgeList α) : EdgeList α := el.withContents (srt el.edges)

/-- `stable_sort_by<idx>(el)`: build.hpp:52-55. -/
def stableSortBy (srt : List (Nat × Nat × α) → List (Nat × Nat × α)) (el : EdgeList α) : EdgeList α := el.withContents (srt el.edges)

/-- The comparator chosen by `lexical_sort_by<idx>`: build.hpp:63-69. -/
def lexicalLt (lt : α → α → Bool) (idx : Nat) : Nat × Nat × α → Nat × Nat × α → Bool := if idx = 0 then tupleLt lt else byKeys 1

/-- `lexical_sort_by<idx>(el)`: build.hpp:57-70. -/
def lexicalSortBy (srt : List (Nat × Nat × α) → List (Nat × Nat × α)) (el : EdgeList α) : EdgeList α := el.withContents (srt el.edges)

/-- `lexical_stable_sort_by<idx>(el)`: build.hpp:72-80. -/
def lexicalStableSortBy (srt : List (Nat × Nat × α) → List (Nat × Nat × α)) (el : EdgeList α) : EdgeList α := el.withContents (srt el.edges)

/-- The dispatch at run time of `swap_to_triangular<idx>(el, cessor)`: build.hpp:385-405; `none` is a value that is neither (a message is printed). -/
def swapToTriangularDyn (idx : Nat) (c : Option Csr.Succession) (el : EdgeList α) : EdgeList α :=
  match c with
  | some .predecessor => swapToTriangular idx .predecessor el
  | some .successor => swapToTriangular idx .successor el
  | none => el

end EdgeList

/-- `permute(vec1, vec2, perm)`: build.hpp:142-149, the iterations of the parallel loop in the order `sched`. -/
def permuteVec {β : Type} (sched : List Nat → List Nat) (vec1 vec2 : List β) (perm : List Nat) : Res (List β) :=
  (sched (List.range perm.length)).foldlM (fun out i => do
    let j ← vget perm i
    let x ← vget vec1 j
    vset out i x) vec2

/-- `degrees(graph)`: build.hpp:446-456, the iterations of the parallel loop in the order `sched`; the degrees are converted to the vertex id type of width `w`. -/
def graphDegrees {α : Type} (w : Nat) (sched : List Nat → List Nat) (g : Vov α) : Res (List Nat) :=
  (sched (List.range g.length)).foldlM (fun out i => do
    let r ← vget g i
    vset out i (r.length % 2 ^ w)) (List.replicate g.length 0)

end NW
