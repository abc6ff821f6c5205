import Verif.Model.Csr

/-! # Model of the utilities: util/intersection_size.hpp, util/util.hpp, util/parallel_for.hpp, util/atomic.hpp,
util/proxysort.hpp -/

namespace NW.Util

/-! ## intersection_size -/

/-- The loop of the sequential `intersection_size(i, ie, j, je)`: intersection_size.hpp:63-75.  The ranges are the
positions `i ..` of `xs` and `j ..` of `ys`; the elements are their first components, the only part compared. -/
def intersectionLoop (xs ys : List Nat) (i j n : Nat) : Res Nat :=
  if h : i ≠ xs.length ∧ j ≠ ys.length then do
    if i < xs.length ∧ j < ys.length then
      let x ← vget xs i
      let y ← vget ys j
      if x < y then intersectionLoop xs ys (i + 1) j n
      else if y < x then intersectionLoop xs ys i (j + 1) n
      else intersectionLoop xs ys (i + 1) (j + 1) (n + 1)
    else .error .outOfBounds
  else return n
termination_by (xs.length - i) + (ys.length - j)

/-- `intersection_size(a, b)`, sequential policy: intersection_size.hpp:51-76, 100-102. -/
def intersectionSize (xs ys : List Nat) : Res Nat := intersectionLoop xs ys 0 0 0

/-! ## integer helpers -/

/-- `__builtin_clz` on a nonzero `w`-bit number. -/
def clz (w v : Nat) : Nat := w - 1 - Nat.log2 v

/-- `log2(uint64_t)`: util.hpp:174-177. -/
def log2 (v : Nat) : Res Nat := do
  check (v ≠ 0)
  return 63 - clz 64 v

/-- `ceil_log2(uint32_t)` (`w = 32`) and `ceil_log2(uint64_t)` (`w = 64`): util.hpp:180-183, 191-194. -/
def ceilLog2 (w v : Nat) : Res Nat := do
  check (v ≠ 0)
  return (w - 1 - clz w v) + (if v &&& (v - 1) ≠ 0 then 1 else 0)

/-- `pow2<T>(int exp)` for an unsigned `T` of `w` bits: util.hpp:197-202. -/
def pow2 (w : Nat) (exp : Int) : Res Nat := do
  check (0 ≤ exp ∧ exp < (w : Int) - 1)
  return (1 <<< exp.toNat) % 2 ^ w

/-- `block(N, n, id)` on unsigned `w`-bit numbers: util.hpp:208-217. -/
def block (w N n id : Nat) : Res (Nat × Nat) :=
  if n = 0 then .error .divByZero
  else do
    let r := N % n
    let b := N / n
    let first := (id * b + min id r) % 2 ^ w
    let last := ((id + 1) * b + min ((id + 1) % 2 ^ w) r) % 2 ^ w
    check (id ≠ 0 ∨ first = 0)
    check (id ≠ (N + 2 ^ w - 1) % 2 ^ w ∨ last = N)
    return (first, last)

/-! ## parallel_reduce -/

/-- One execution of `tbb::parallel_reduce`: how the range was split, and for each split whether the right part
was executed by a fresh body (`stolen`) or continued by the body that executed the left part. -/
inductive Splitting (ε : Type) where
  | leaf (xs : List ε)
  | node (stolen : Bool) (l r : Splitting ε)

/-- The elements of the range. -/
def Splitting.elems {ε : Type} : Splitting ε → List ε
  | .leaf xs => xs
  | .node _ l r => l.elems ++ r.elems

/-- `parallel_for_sequential(range, op, reduce, init)`: parallel_for.hpp:78-83. -/
def seqReduce {ε T : Type} (op : ε → T) (reduce : T → T → T) (xs : List ε) (init : T) : T :=
  xs.foldl (fun acc i => reduce acc (op i)) init

/-- `tbb::parallel_reduce(range, identity, body, reduction)` with body `parallel_for_sequential`; `p` is the value the body has
when it reaches this part of the range. -/
def tbbReduce {ε T : Type} (op : ε → T) (reduce : T → T → T) (identity : T) : Splitting ε → T → T
  | .leaf xs, p => seqReduce op reduce xs p
  | .node true l r, p => reduce (tbbReduce op reduce identity l p) (tbbReduce op reduce identity r identity)
  | .node false l r, p => tbbReduce op reduce identity r (tbbReduce op reduce identity l p)

/-- `parallel_reduce(range, op, reduce, init)`: parallel_for.hpp:125-134. -/
def parallelReduce {ε T : Type} (op : ε → T) (reduce : T → T → T) (init : T) (divisible : Bool) (t : Splitting ε) : T :=
  if divisible then tbbReduce op reduce init t init else seqReduce op reduce t.elems init

/-! ## fetch_add by compare-and-swap -/

/-- Where one thread is in `fetch_add` on a floating point location: atomic.hpp:144-148 (the other variant,
134-138, has the same steps). -/
inductive Phase (A : Type) where
  | start
  | loaded (e : A)
  | done (e : A)

/-- The shared location and the threads. -/
structure AddState (A : Type) where
  x : A
  ph : List (Phase A)

/-- One atomic step of one thread; the middle argument lists the completions (thread, returned value).
`compare_exchange` on failure stores the current value in `e`; it may also fail spuriously. -/
inductive AddStep {A : Type} (add : A → A → A) (amt : List A) : AddState A → List (Nat × A) → AddState A → Prop
  | load (s : AddState A) (t : Nat) : s.ph[t]? = some .start →
      AddStep add amt s [] { s with ph := s.ph.set t (.loaded s.x) }
  | casOk (s : AddState A) (t : Nat) (e u : A) : s.ph[t]? = some (.loaded e) → s.x = e → amt[t]? = some u →
      AddStep add amt s [(t, e)] { x := add e u, ph := s.ph.set t (.done e) }
  | casFail (s : AddState A) (t : Nat) (e : A) : s.ph[t]? = some (.loaded e) →
      AddStep add amt s [] { s with ph := s.ph.set t (.loaded s.x) }

/-- Any interleaving of steps. -/
inductive AddRun {A : Type} (add : A → A → A) (amt : List A) : AddState A → List (Nat × A) → AddState A → Prop
  | refl (s : AddState A) : AddRun add amt s [] s
  | tail {s s' s'' : AddState A} {l l' : List (Nat × A)} : AddRun add amt s l s' → AddStep add amt s' l' s'' →
      AddRun add amt s (l ++ l') s''

/-- All threads about to call `fetch_add`. -/
def AddState.init {A : Type} (x : A) (n : Nat) : AddState A := ⟨x, List.replicate n .start⟩

/-! ## proxysort -/

/-- `proxysort(x, comp)`: proxysort.hpp:36-65; the comparator's assertions hold for positions of `x`. -/
def proxysort {β : Type} (srt : (Nat → Nat → Bool) → List Nat → List Nat) (comp : β → β → Bool) (x : List β) :
    Res (List Nat) := do
  let perm := List.range x.length
  check (perm ≠ [])
  return srt (fun a b => match x[a]?, x[b]? with
    | some u, some v => comp u v
    | _, _ => false) perm

end NW.Util
