import Verif.Base

/-!
# Model of the work lists: adaptors/worklist.hpp

A loop `for (auto&& x : worklist) body(x)` over a work list whose body may push items.  The body is any function of its own state and the item; it returns its new state and the
items it pushes.  The components `delivered` and `pushed` only record what happened.  `tbb::concurrent_queue` is used by one thread here, so it is a list.
-/

namespace NW.Worklist

variable {σ W : Type}

/-- A loop over a `worklist_range`: the queue, the state of the user's body, and the history. -/
structure St (σ W : Type) where
  q : List W
  user : σ
  delivered : List W
  pushed : List W

/-- One round: `it != end()` (worklist.hpp:66, 42), `*it` (53-58), the body with its calls of `push_back` (77), `++it` (48-51). -/
def round (body : σ → W → σ × List W) (st : St σ W) : Res (St σ W ⊕ St σ W) :=
  match st.q with
  | [] => return .inr st
  | x :: _ =>
    match st.q ++ (body st.user x).2 with
    | [] => .error .emptyContainer
    | _ :: q' => return .inl { q := q', user := (body st.user x).1, delivered := st.delivered ++ [x], pushed := st.pushed ++ (body st.user x).2 }

/-- The start of the loop with the content `init`. -/
def start (init : List W) (u : σ) : St σ W := { q := init, user := u, delivered := [], pushed := [] }

/-- A loop over a `tbbworklist_range`: as above with the iterator's `item`. -/
structure TSt (σ W : Type) where
  q : List W
  item : W
  user : σ
  delivered : List W
  pushed : List W

/-- `item = dummy_; Q_.try_pop(item)`: worklist.hpp:98-99, 103-104. -/
def tryPop (dummy : W) (q : List W) : W × List W :=
  match q with
  | [] => (dummy, [])
  | x :: q => (x, q)

/-- `begin()`: worklist.hpp:97-100. -/
def tStart (dummy : W) (init : List W) (u : σ) : TSt σ W :=
  { q := (tryPop dummy init).2, item := (tryPop dummy init).1, user := u, delivered := [], pushed := [] }

/-- One round: `it != end()` (worklist.hpp:128, 93), `*it` (109-120), the body, `++it` (102-107). -/
def tRound (dummy : W) (body : σ → W → σ × List W) (st : TSt σ W) : Res (TSt σ W ⊕ TSt σ W) :=
  if st.q.isEmpty then return .inr st
  else
    let p := body st.user st.item
    let r := tryPop dummy (st.q ++ p.2)
    return .inl { q := r.2, item := r.1, user := p.1, delivered := st.delivered ++ [st.item], pushed := st.pushed ++ p.2 }

/-- A loop over a `tbbworklist_range2`: one queue per level. -/
structure BSt (σ W : Type) where
  buckets : List (List W)
  item : W
  user : σ
  delivered : List W
  pushed : List (W × Nat)

/-- `push_back(work, level)`: worklist.hpp:232-243. -/
def pushLevel (buckets : List (List W)) (x : W × Nat) : Res (List (List W)) := do
  let b := if x.2 + 1 > buckets.length then buckets ++ List.replicate (x.2 + 1 - buckets.length) [] else buckets
  let q ← vget b x.2
  vset b x.2 (q ++ [x.1])

/-- The loop over the buckets that pops from the first one with an item: worklist.hpp:183-185, 200-202. -/
def popFirst (dummy : W) : List (List W) → W × List (List W)
  | [] => (dummy, [])
  | [] :: bs => ((popFirst dummy bs).1, [] :: (popFirst dummy bs).2)
  | (x :: q) :: bs => (x, q :: bs)

/-- The content after a list of pushes into the initial `n` (10000) empty buckets: worklist.hpp:153. -/
def fillLevels (n : Nat) (init : List (W × Nat)) : Res (List (List W)) := init.foldlM pushLevel (List.replicate n [])

/-- `begin()`: worklist.hpp:171-186. -/
def bStart (dummy : W) (buckets : List (List W)) (u : σ) : BSt σ W :=
  { buckets := (popFirst dummy buckets).2, item := (popFirst dummy buckets).1, user := u, delivered := [], pushed := [] }

/-- One round: `it != end()` (worklist.hpp:219, 158-167), `*it` (207-211), the body, `++it` (188-205). -/
def bRound (dummy : W) (body : σ → W → σ × List (W × Nat)) (st : BSt σ W) : Res (BSt σ W ⊕ BSt σ W) :=
  if st.buckets.all List.isEmpty then return .inr st
  else do
    let p := body st.user st.item
    let bs ← p.2.foldlM pushLevel st.buckets
    let r := popFirst dummy bs
    return .inl { buckets := r.2, item := r.1, user := p.1, delivered := st.delivered ++ [st.item], pushed := st.pushed ++ p.2 }

end NW.Worklist
