import Verif.Base
import Verif.Concur

/-!
# Model of the shared minimum, sum and counters

`writeMin`, `writeAdd` in util/disjoint_set.hpp and experimental/algorithms/connected_components.hpp and the counting output iterators in util/util_par.hpp and util/util.hpp, called by several
threads on one location.  Every thread has a list of calls to make.  Steps of different threads interleave in any order; the memory is sequentially consistent.
-/

namespace NW.Shared

/-! ## The loops with compare-and-swap -/

/-- A thread: the arguments of the calls it has still to make, the first of which may be under way; the value that was read in it and the value to write; what its calls have returned. -/
structure Thread (V B : Type) where
  todo : List B
  held : Option (V × V)
  out : List Bool

/-- The location and the threads. -/
structure State (V B : Type) where
  x : V
  ts : List (Thread V B)

variable {V B : Type}

/-- The value that a call of `writeMin(a, b)` wants to write if it has read `c`, if any: `c > b`, disjoint_set.hpp:572; connected_components.hpp:46. -/
def updMin [LT V] [DecidableLT V] (c b : V) : Option V := if b < c then some b else none

/-- `less(new_val, old_val)`: disjoint_set.hpp:582. -/
def updLess (less : V → V → Bool) (c b : V) : Option V := if less b c then some b else none

/-- `newv = oldv + b`: disjoint_set.hpp:590. -/
def updAdd [Add V] (c b : V) : Option V := some (c + b)

/-- The steps of the threads: disjoint_set.hpp:567-592, connected_components.hpp:40-48.  What a thread computes from the value it has read belongs to the step that reads it.
`__sync_bool_compare_and_swap` and `compare_exchange_strong` fail only if the values differ. -/
inductive Step [DecidableEq V] (upd : V → B → Option V) : State V B → Res (State V B ⊕ (V × List (List Bool))) → Prop
  /-- The value is read and need not be changed: the call returns. -/
  | skip {s : State V B} {i : Nat} {b : B} {bs : List B} {out : List Bool} (h : s.ts[i]? = some ⟨b :: bs, none, out⟩) (hu : upd s.x b = none) :
      Step upd s (.ok (.inl ⟨s.x, s.ts.set i ⟨bs, none, out ++ [false]⟩⟩))
  /-- The value is read and is to be changed. -/
  | read {s : State V B} {i : Nat} {b : B} {bs : List B} {out : List Bool} {v : V} (h : s.ts[i]? = some ⟨b :: bs, none, out⟩) (hu : upd s.x b = some v) :
      Step upd s (.ok (.inl ⟨s.x, s.ts.set i ⟨b :: bs, some (s.x, v), out⟩⟩))
  /-- The compare-and-swap succeeds: the call returns. -/
  | swap {s : State V B} {i : Nat} {b : B} {bs : List B} {out : List Bool} {c v : V} (h : s.ts[i]? = some ⟨b :: bs, some (c, v), out⟩) (hc : s.x = c) :
      Step upd s (.ok (.inl ⟨v, s.ts.set i ⟨bs, none, out ++ [true]⟩⟩))
  /-- The compare-and-swap fails: the loop goes on. -/
  | fail {s : State V B} {i : Nat} {b : B} {bs : List B} {out : List Bool} {c v : V} (h : s.ts[i]? = some ⟨b :: bs, some (c, v), out⟩) (hc : s.x ≠ c) :
      Step upd s (.ok (.inl ⟨s.x, s.ts.set i ⟨b :: bs, none, out⟩⟩))
  /-- All threads have made their calls: the value of the location and what the calls have returned. -/
  | done {s : State V B} (h : ∀ t ∈ s.ts, t.todo = []) : Step upd s (.ok (.inr (s.x, s.ts.map Thread.out)))

/-- The threads before they begin. -/
def start (x : V) (calls : List (List B)) : State V B := ⟨x, calls.map fun bs => ⟨bs, none, []⟩⟩

/-! ## The counters -/

/-- Where a thread is in `count++`: not in it, with the mutex, with the value that it has read, with the mutex after writing. -/
inductive Phase where
  | out
  | locked
  | loaded (v : Nat)
  | stored
  deriving DecidableEq

/-- The counter, the holder of the mutex, and per thread the number of assignments it has still to make, with the one under way, and where it is. -/
structure Count where
  count : Nat
  mtx : Option Nat
  ts : List (Nat × Phase)

/-- The steps of threads that assign to a `par_counting_output_iterator`: util_par.hpp:37-41.  (`size_t` does not overflow here.) -/
inductive MutexStep : Count → Res (Count ⊕ Nat) → Prop
  | lock {s : Count} {i n : Nat} (h : s.ts[i]? = some (n + 1, .out)) (hm : s.mtx = none) : MutexStep s (.ok (.inl ⟨s.count, some i, s.ts.set i (n + 1, .locked)⟩))
  | load {s : Count} {i n : Nat} (h : s.ts[i]? = some (n, .locked)) : MutexStep s (.ok (.inl ⟨s.count, s.mtx, s.ts.set i (n, .loaded s.count)⟩))
  | store {s : Count} {i n v : Nat} (h : s.ts[i]? = some (n, .loaded v)) : MutexStep s (.ok (.inl ⟨v + 1, s.mtx, s.ts.set i (n, .stored)⟩))
  | unlock {s : Count} {i n : Nat} (h : s.ts[i]? = some (n, .stored)) : MutexStep s (.ok (.inl ⟨s.count, none, s.ts.set i (n - 1, .out)⟩))
  | done {s : Count} (h : ∀ t ∈ s.ts, t = (0, .out)) : MutexStep s (.ok (.inr s.count))

/-- The steps of threads that assign to an `atomic_counting_output_iterator`: util_par.hpp:56-59. -/
inductive AtomicStep : Count → Res (Count ⊕ Nat) → Prop
  | incr {s : Count} {i n : Nat} (h : s.ts[i]? = some (n + 1, .out)) : AtomicStep s (.ok (.inl ⟨s.count + 1, s.mtx, s.ts.set i (n, .out)⟩))
  | done {s : Count} (h : ∀ t ∈ s.ts, t = (0, .out)) : AtomicStep s (.ok (.inr s.count))

/-- The steps of threads that share the count of a `counting_output_iterator`: util.hpp:47-51, without synchronisation. -/
inductive PlainStep : Count → Res (Count ⊕ Nat) → Prop
  | load {s : Count} {i n : Nat} (h : s.ts[i]? = some (n + 1, .out)) : PlainStep s (.ok (.inl ⟨s.count, s.mtx, s.ts.set i (n + 1, .loaded s.count)⟩))
  | store {s : Count} {i n v : Nat} (h : s.ts[i]? = some (n, .loaded v)) : PlainStep s (.ok (.inl ⟨v + 1, s.mtx, s.ts.set i (n - 1, .out)⟩))
  | done {s : Count} (h : ∀ t ∈ s.ts, t = (0, .out)) : PlainStep s (.ok (.inr s.count))

/-- The threads before they begin; thread `i` makes `ns[i]` assignments. -/
def startCount (c : Nat) (ns : List Nat) : Count := ⟨c, none, ns.map fun n => (n, .out)⟩

end NW.Shared
