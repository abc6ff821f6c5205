import Verif.Model.Splice
import Verif.Concur

/-!
# Model of `unionBySizeAtomic` of util/disjoint_set.hpp, called by several threads

Every thread makes one call.  A step of a thread is one access to `sets_` and what the thread computes from it; the steps of different threads interleave in any order and the memory is
sequentially consistent.  The line numbers are those of util/disjoint_set.hpp.  Integers do not overflow, so the assertions (391, 399) hold; the output (408-409) is left out.  The arguments are elements, so that the
exception of `find_with_pathcompression` (184-186) is not thrown.
-/

namespace NW.DsetPar
open Splice (ent put)

/-- Where a thread is in `unionBySizeAtomic(u, v)`. -/
inductive Pc where
  /-- `0 > sets_[v]`: 188. -/
  | start
  /-- `0 <= sets_[index]`: 199. -/
  | test (stack : List Int) (index : Int)
  /-- `s.push(index); index = sets_[index]`, which reads the entry once more: 200-201. -/
  | take (stack : List Int) (index : Int)
  /-- `sets_[s.top()] = index; s.pop()`: 204-206. -/
  | write (stack : List Int) (index : Int)
  /-- `if (rootu == rootv) return; valueofu = sets_[rootu]`: 378-379. -/
  | found (rootv : Int)
  /-- `valueofv = sets_[rootv]`: 380. -/
  | half (rootv a : Int)
  /-- `oldv = a; newv = oldv + b` in `writeAdd`: 589-590. -/
  | add (rootv a b : Int)
  /-- `compare_and_swap(a, oldv, newv)`: 591. -/
  | swap (rootv a b old : Int)
  /-- The entry of the new child is set: 404-407. -/
  | link (rootv : Int)
  | done
  deriving DecidableEq

/-- A thread: the arguments of its call and where it is in it. -/
structure Thread where
  u : Nat
  v : Nat
  pc : Pc
  deriving DecidableEq

/-- The entry that `writeAdd` changes: 382-398. -/
def goal (t : Thread) (rootv a b : Int) : Int := if a > b then rootv else (t.u : Int)

/-- What `writeAdd` adds to it: 390, 398. -/
def amount (a b : Int) : Int := if a > b then a else b

/-- One step of a thread: the new entries and where the thread is then. -/
def act (s : List Int) (t : Thread) : Res (List Int × Pc) :=
  match t.pc with
  | .start => do
    let x ← ent s (t.v : Int)
    return (s, if 0 > x then .found (t.v : Int) else .test [] (t.v : Int))
  | .test st i => do
    let x ← ent s i
    return (s, if 0 ≤ x then .take st i else .write st i)
  | .take st i => do
    let x ← ent s i
    return (s, .test (i :: st) x)
  | .write [] i => return (s, .found i)
  | .write (y :: st) i => do
    let s ← put s y i
    return (s, .write st i)
  | .found r =>
    if (t.u : Int) = r then return (s, .done)
    else do
      let a ← ent s (t.u : Int)
      return (s, .half r a)
  | .half r a => do
    let b ← ent s r
    return (s, .add r a b)
  | .add r a b => do
    let old ← ent s (goal t r a b)
    return (s, .swap r a b old)
  | .swap r a b old => do
    let x ← ent s (goal t r a b)
    if x = old then
      let s ← put s (goal t r a b) (old + amount a b)
      return (s, .link r)
    else return (s, .add r a b)
  | .link r => do
    let s ← if t.u < t.v then put s (t.u : Int) r else put s r (t.u : Int)
    return (s, .done)
  | .done => return (s, .done)

/-- The entries and the threads. -/
structure State where
  s : List Int
  ts : List Thread

/-- Any thread that is not done makes the next step; when all are done, the entries are the result. -/
inductive Step : State → Res (State ⊕ List Int) → Prop
  | ok {st : State} {i : Nat} {t : Thread} {s' : List Int} {pc : Pc} (h : st.ts[i]? = some t) (hn : t.pc ≠ .done) (ha : act st.s t = .ok (s', pc)) :
      Step st (.ok (.inl ⟨s', st.ts.set i { t with pc := pc }⟩))
  | fault {st : State} {i : Nat} {t : Thread} {f : Fault} (h : st.ts[i]? = some t) (hn : t.pc ≠ .done) (ha : act st.s t = .error f) : Step st (.error f)
  | stop {st : State} (h : ∀ t ∈ st.ts, t.pc = .done) : Step st (.ok (.inr st.s))

/-- One thread for every call `unionBySizeAtomic(u, v)`. -/
def launch (s : List Int) (calls : List (Nat × Nat)) : State := ⟨s, calls.map fun c => ⟨c.1, c.2, .start⟩⟩

end NW.DsetPar
