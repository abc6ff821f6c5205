import Verif.Model.PageRank

/-!
# Model of experimental/algorithms/page_rank.hpp

The versions differ in when the contributions are computed and in how the vertices are shared out.

* `vc`, `v1`, `v4`, `v6` to `v10` compute all contributions at the beginning of a round; `v2`, `v12`, `v14` update the contribution of a vertex with its score.
* `vc`, `v1`, `v2` go through the vertices in order; thread `t` of `v4` takes `t`, `t + num_threads`, …; the others leave it to the library to cut the vertices into
  stretches which are processed in parallel.

Simplifications: those of `Model/PageRank`; the parallel loops that write each entry once from entries no other iteration writes (`std::fill`, `std::transform`) are one step;
the parallel sum over the row of one vertex in `v7` (346-355) and `v8` (396-397) is a sum in the order of the row (the order does not matter for exact numbers);
counters do not wrap around.  Printing is left out.
-/

namespace NW.PageRankExp
open NW.PageRank Spec

variable {α : Type}

/-- The state during a round: `left` rounds may still follow this one, `rounds` have been completed; `bs` are the vertices the threads have not yet finished. -/
structure XSt (α : Type) where
  left : Nat
  rounds : Nat
  bs : List (List Nat)
  tasks : List (PageRank.Task α)
  mem : Mem

/-- The score has been written (and what remains is the contribution). -/
def stored : PageRank.Task α → Bool
  | .share _ => true
  | .done _ => true
  | _ => false

/-- `fabs(page_rank[i] - old_rank)`. -/
def err : PageRank.Task α → ℚ
  | .share e => e
  | .done e => e
  | _ => 0

/-- `outgoing_contrib[i] = page_rank[i] / degrees[i]` for all `i < n`: page_rank.hpp:113-116 (vc), 154-157 (v1), 225-229 (v4), 281-282 (v6), 341-345 (v7), 385-389 (v8),
423-426 (v9), 473-479 (v10), 528-532 (v12). -/
def shares (n : Nat) (deg : List Nat) (rank : List ℚ) : Res (List (Option ℚ)) :=
  (List.range n).mapM fun i => do
    let x ← vget rank i
    let k ← vget deg i
    return quot x k

/-- The end of a round and the beginning of the next, for `n` scores: page_rank.hpp:132-133 and 110-116 (vc), 172 and 150-157 (v1), 204-205 (v2), 253-259 and 223-229 (v4), 365 and 339-345 (v7),
403-404 and 383-389 (v8), 444-446 and 422-426 (v9), 501-503 and 472-479 (v10), 560-562 (v12), 729-732 (v14).  `jac`: the contributions are computed here. -/
def xEnd (g : Rows α) (n : Nat) (jac : Bool) (deg : List Nat) (threshold : ℚ) (bs' : List (List Nat)) (s : XSt α) : Res (XSt α ⊕ List ℚ × Nat) :=
  if (s.tasks.map err).sum < threshold then return .inr (s.mem.rank, s.rounds + 1)
  else match s.left with
    | 0 => return .inr (s.mem.rank, s.rounds + 1)
    | k + 1 =>
      if jac then do
        let c ← shares n deg s.mem.rank
        return .inl { left := k, rounds := s.rounds + 1, bs := bs', tasks := tasks g, mem := ⟨s.mem.rank, c⟩ }
      else return .inl { left := k, rounds := s.rounds + 1, bs := bs', tasks := tasks g, mem := s.mem }

/-- A task leaves its thread when its score has been written (`jac`), or its contribution too. -/
def leaves (jac : Bool) (t : PageRank.Task α) : Bool := if jac then stored t else t.isDone

/-- The steps of the loop over the rounds: page_rank.hpp:110-134 (vc), 150-173 (v1), 189-206 (v2), 223-260 (v4), 339-366 (v7), 383-405 (v8), 422-447 (v9), 472-504 (v10), 535-563 (v12),
714-733 (v14).  A thread takes the next step for the first of its vertices; `cut bs` says that the vertices may be shared out as in `bs`. -/
inductive XStep (g : Rows α) (n : Nat) (jac : Bool) (cut : List (List Nat) → Prop) (ts : Mem → Nat → PageRank.Task α → Res (PageRank.Task α × Mem)) (deg : List Nat) (threshold : ℚ) :
    XSt α → Res (XSt α ⊕ List ℚ × Nat) → Prop
  | task {s : XSt α} {k i : Nat} {rest : List Nat} {t : PageRank.Task α} (hk : s.bs[k]? = some (i :: rest)) (ht : s.tasks[i]? = some t) :
      XStep g n jac cut ts deg threshold s ((ts s.mem i t).map fun r =>
        .inl { s with bs := s.bs.set k (if leaves jac r.1 then rest else i :: rest), tasks := s.tasks.set i r.1, mem := r.2 })
  | missing {s : XSt α} {k i : Nat} {rest : List Nat} (hk : s.bs[k]? = some (i :: rest)) (ht : s.tasks[i]? = none) :
      XStep g n jac cut ts deg threshold s (.error .outOfBounds)
  | join {s : XSt α} (h : ∀ b ∈ s.bs, b = []) (bs' : List (List Nat)) (hb : cut bs') :
      XStep g n jac cut ts deg threshold s (xEnd g n jac deg threshold bs' s)

/-- One thread goes through the vertices in order: page_rank.hpp:122 (vc), 160 (v1), 194 (v2). -/
def inOrder (n : Nat) (bs : List (List Nat)) : Prop := bs = [List.range n]

/-- Thread `t` of `T` takes `t`, `t + T`, …: page_rank.hpp:232-250 (v4). -/
def strided (T n : Nat) (bs : List (List Nat)) : Prop := bs = (List.range T).map fun t => (List.range n).filter fun i => i % T == t

/-- The vertices are cut into stretches anywhere: page_rank.hpp:348 (v7), 392 (v8), 430 (v9), 484 (v10), 540 (v12), 716 (v14). -/
def stretches (n : Nat) (bs : List (List Nat)) : Prop := bs.flatten = List.range n

/-- Under every schedule the loop started with the memory `m` ends without a fault, and with scores and a number of rounds that satisfy `Q`. -/
def XAlways (g : Rows α) (n : Nat) (jac : Bool) (cut : List (List Nat) → Prop) (ts : Mem → Nat → PageRank.Task α → Res (PageRank.Task α × Mem)) (deg : List Nat) (threshold : ℚ) (maxIters : Nat) (m : Res Mem)
    (Q : List ℚ × Nat → Prop) : Prop :=
  ∃ m', m = .ok m' ∧ match maxIters with
    | 0 => Q (m'.rank, 0)
    | k + 1 => (∃ bs, cut bs) ∧ ∀ bs, cut bs → Sure (XStep g n jac cut ts deg threshold) Q { left := k, rounds := 0, bs := bs, tasks := tasks g, mem := m' }

/-- All scores `1 / n`, and the contributions of the first round: page_rank.hpp:146 and 154-157 (v1), and likewise 102 (vc), 218 (v4), 333 (v7), 379 (v8), 417 (v9).
(With `max_iters = 0` the contributions are not computed.) -/
def fillMem (n : Nat) (deg : List Nat) (maxIters : Nat) (rank : List ℚ) : Res Mem :=
  let r := List.replicate rank.length (1 / (rank.length : ℚ))
  match maxIters with
  | 0 => return ⟨r, []⟩
  | _ + 1 => do
    let c ← shares n deg r
    return ⟨r, c⟩

/-- The same with checked writes: page_rank.hpp:461-465, 473-479 (v10). -/
def loopMem (n : Nat) (deg : List Nat) (maxIters : Nat) (rank : List ℚ) : Res Mem := do
  let r ← (List.range n).foldlM (fun r i => vset r i (1 / (n : ℚ))) rank
  match maxIters with
  | 0 => return ⟨r, []⟩
  | _ + 1 => do
    let c ← shares n deg r
    return ⟨r, c⟩

/-- The degrees `vc` counts: page_rank.hpp:104-106. -/
def countDegrees (g : Rows α) (n : Nat) : Res (List Nat) :=
  g.flatten.foldlM (fun deg e => do
    let k ← vget deg e.1
    vset deg e.1 (k + 1)) (List.replicate n 0)

/-- `page_rank_vc`: page_rank.hpp:93-135. -/
def vc (g : Rows α) (d threshold : ℚ) (maxIters : Nat) (rank : List ℚ) (Q : List ℚ × Nat → Prop) : Prop :=
  ∃ deg, countDegrees g rank.length = .ok deg ∧
    XAlways g rank.length true (inOrder g.length) (taskStep ((1 - d) / rank.length) d deg) deg threshold maxIters (fillMem rank.length deg maxIters rank) Q

/-- `page_rank_v1`: page_rank.hpp:137-174. -/
def v1 (g : Rows α) (deg : List Nat) (d threshold : ℚ) (maxIters : Nat) (rank : List ℚ) (Q : List ℚ × Nat → Prop) : Prop :=
  XAlways g rank.length true (inOrder rank.length) (taskStep ((1 - d) / rank.length) d deg) deg threshold maxIters (fillMem rank.length deg maxIters rank) Q

/-- `page_rank_v2`: page_rank.hpp:176-207.  The contributions are zero at first (187). -/
def v2 (g : Rows α) (deg : List Nat) (d threshold : ℚ) (maxIters : Nat) (rank : List ℚ) (Q : List ℚ × Nat → Prop) : Prop :=
  XAlways g rank.length false (inOrder rank.length) (taskStep ((1 - d) / rank.length) d deg) deg threshold maxIters
    (.ok ⟨List.replicate rank.length (1 / (rank.length : ℚ)), List.replicate rank.length (some 0)⟩) Q

/-- `page_rank_v4` with `T` threads: page_rank.hpp:209-261. -/
def v4 (T : Nat) (g : Rows α) (deg : List Nat) (d threshold : ℚ) (maxIters : Nat) (rank : List ℚ) (Q : List ℚ × Nat → Prop) : Prop :=
  XAlways g rank.length true (strided T rank.length) (taskStep ((1 - d) / rank.length) d deg) deg threshold maxIters (fillMem rank.length deg maxIters rank) Q

/-- `page_rank_v7`, `page_rank_v8`, `page_rank_v9`: page_rank.hpp:321-448. -/
def v789 (g : Rows α) (deg : List Nat) (d threshold : ℚ) (maxIters : Nat) (rank : List ℚ) (Q : List ℚ × Nat → Prop) : Prop :=
  XAlways g rank.length true (stretches rank.length) (taskStep ((1 - d) / rank.length) d deg) deg threshold maxIters (fillMem rank.length deg maxIters rank) Q

/-- `page_rank_v10`: page_rank.hpp:450-505. -/
def v10 (g : Rows α) (deg : List Nat) (d threshold : ℚ) (maxIters : Nat) (rank : List ℚ) (Q : List ℚ × Nat → Prop) : Prop :=
  XAlways g g.length true (stretches g.length) (taskStep ((1 - d) / g.length) d deg) deg threshold maxIters (loopMem g.length deg maxIters rank) Q

/-- `page_rank_v14`: page_rank.hpp:700-735.  The scores and the contributions are initialised together (709-712), which is `PageRank.start`. -/
def v14 (g : Rows α) (deg : List Nat) (d threshold : ℚ) (maxIters : Nat) (rank : List ℚ) (Q : List ℚ × Nat → Prop) : Prop :=
  XAlways g g.length false (stretches g.length) (taskStep ((1 - d) / g.length) d deg) deg threshold maxIters (start g.length deg rank) Q

/-! ## page_rank_v6 -/

/-- The contributions have been added up. -/
def summed : PageRank.Task α → Bool
  | .sum _ _ => false
  | _ => true

/-- `z[i]`. -/
def zOf : PageRank.Task α → ℚ
  | .sum z _ => z
  | .store z => z
  | _ => 0

/-- The end of a round of `page_rank_v6` and the beginning of the next: page_rank.hpp:310-317, 279-282, 301. -/
def end6 (g : Rows α) (base d : ℚ) (deg : List Nat) (threshold : ℚ) (bs' : List (List Nat)) (s : XSt α) : Res (XSt α ⊕ List ℚ × Nat) :=
  let rank' := s.tasks.map fun t => base + d * zOf t
  if (List.zipWith (fun a b => |a - b|) rank' s.mem.rank).sum < threshold then return .inr (rank', s.rounds + 1)
  else match s.left with
    | 0 => return .inr (rank', s.rounds + 1)
    | k + 1 => do
      let c ← shares g.length deg rank'
      return .inl { left := k, rounds := s.rounds + 1, bs := bs', tasks := tasks g, mem := ⟨rank', c⟩ }

/-- The steps of `page_rank_v6`: page_rank.hpp:279-318.  The edge range is split between vertices only (edge_range.hpp:53-57), so one thread adds up `z[i]` (303-308).
Simplification: there is one score per vertex. -/
inductive Step6 (g : Rows α) (base d : ℚ) (deg : List Nat) (threshold : ℚ) : XSt α → Res (XSt α ⊕ List ℚ × Nat) → Prop
  | task {s : XSt α} {k i : Nat} {rest : List Nat} {t : PageRank.Task α} (hk : s.bs[k]? = some (i :: rest)) (ht : s.tasks[i]? = some t) :
      Step6 g base d deg threshold s ((taskStep base d deg s.mem i t).map fun r =>
        .inl { s with bs := s.bs.set k (if summed r.1 then rest else i :: rest), tasks := s.tasks.set i r.1, mem := r.2 })
  | join {s : XSt α} (h : ∀ b ∈ s.bs, b = []) (bs' : List (List Nat)) (hb : stretches g.length bs') :
      Step6 g base d deg threshold s (end6 g base d deg threshold bs' s)

/-- `page_rank_v6`: page_rank.hpp:263-319. -/
def v6 (g : Rows α) (deg : List Nat) (d threshold : ℚ) (maxIters : Nat) (rank : List ℚ) (Q : List ℚ × Nat → Prop) : Prop :=
  ∃ m, fillMem rank.length deg maxIters rank = .ok m ∧ match maxIters with
    | 0 => Q (m.rank, 0)
    | k + 1 => ∀ bs, stretches g.length bs →
        Sure (Step6 g ((1 - d) / rank.length) d deg threshold) Q { left := k, rounds := 0, bs := bs, tasks := tasks g, mem := m }

/-! ## page_rank_v12 -/

/-- Only contributions above the threshold are added: page_rank.hpp:540-553.  Simplification: the two reads of a contribution (544, 545) are one. -/
def task12 (base d threshold : ℚ) (deg : List Nat) (m : Mem) (i : Nat) : PageRank.Task α → Res (PageRank.Task α × Mem)
  | .sum z (e :: rest) => do
    let c ← vget m.contrib e.1
    match c with
    | none => .error .divByZero
    | some c => if c > threshold then return (.sum (z + c) rest, m) else return (.sum z rest, m)
  | t => taskStep base d deg m i t

/-- `page_rank_v12`: page_rank.hpp:507-564. -/
def v12 (g : Rows α) (deg : List Nat) (d threshold : ℚ) (maxIters : Nat) (rank : List ℚ) (Q : List ℚ × Nat → Prop) : Prop :=
  XAlways g g.length false (stretches g.length) (task12 ((1 - d) / g.length) d threshold deg) deg threshold maxIters (start g.length deg rank) Q

/-! ## page_rank_v3, page_rank_v13 -/

/-- The arrays of the residual versions. -/
structure RMem where
  rank : List ℚ
  delta : List ℚ
  residual : List ℚ
  changed : Bool

/-- The first loop of a round for vertex `src`: page_rank.hpp:591-605 (v3), 659-669 (v13). -/
def push (d threshold : ℚ) (deg : List Nat) (m : RMem) (src : Nat) : Res RMem := do
  let delta ← vset m.delta src 0
  let r ← vget m.residual src
  if r > threshold then
    let x ← vget m.rank src
    let rank ← vset m.rank src (x + r)
    let residual ← vset m.residual src 0
    let k ← vget deg src
    if k > 0 then
      let delta ← vset delta src (r * d / k)
      return ⟨rank, delta, residual, true⟩
    else return ⟨rank, delta, residual, m.changed⟩
  else return { m with delta := delta }

/-- What arrives at a vertex: page_rank.hpp:611-616 (v3), 678-683 (v13). -/
def gather (delta : List ℚ) (row : List (Nat × α)) : Res ℚ :=
  row.foldlM (fun sum e => do
    let x ← vget delta e.1
    if x > 0 then return sum + x else return sum) 0

/-- The second loop of a round for vertex `i`: page_rank.hpp:609-620 (v3), 676-688 (v13, which resets the residual of a vertex nothing arrives at). -/
def pull (g : Rows α) (reset : Bool) (delta : List ℚ) (residual : List ℚ) (i : Nat) : Res (List ℚ) := do
  let row ← vget g i
  let sum ← gather delta row
  if sum > 0 then vset residual i sum
  else if reset then vset residual i 0
  else return residual

/-- The rounds: page_rank.hpp:584-627 (v3), 654-697 (v13).  The iterations of a parallel loop of `v13` touch different entries (and all set `changed` to the same value),
so they are taken in order. -/
def rRounds (g : Rows α) (reset : Bool) (d threshold : ℚ) (deg : List Nat) : Nat → RMem → Res (List ℚ)
  | 0, m => return m.rank
  | k + 1, m => do
    let m ← (List.range g.length).foldlM (push d threshold deg) { m with changed := false }
    let residual ← (List.range g.length).foldlM (pull g reset m.delta) m.residual
    if m.changed then rRounds g reset d threshold deg k { m with residual := residual }
    else return m.rank

/-- `page_rank_v3` (`reset = false`): page_rank.hpp:566-628; `page_rank_v13` (`reset = true`): page_rank.hpp:630-698. -/
def residual (g : Rows α) (reset : Bool) (deg : List Nat) (d threshold : ℚ) (maxIters : Nat) (rank : List ℚ) : Res (List ℚ) := do
  let rank ← (List.range g.length).foldlM (fun r i => vset r i 0) rank
  rRounds g reset d threshold deg maxIters ⟨rank, List.replicate g.length 0, List.replicate g.length (1 - d), false⟩

end NW.PageRankExp
