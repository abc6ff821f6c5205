import Verif.Model.Brandes

/-!
# Model of approx_betweenness_worklist_serial in experimental/algorithms/betweenness_centrality.hpp

Path counts have an unsigned type with `M` values; `inf` is the number that marks unreached vertices (the greatest number with 32 bits).  Levels do not wrap around.  Scores are rational numbers: rounding is
not modelled.  A `std::unordered_set` is a list without repetitions in the order of insertion; `ord v l` is the order in which the elements of such a set of vertex `v` are visited.  A missing entry of
`edge_l_s` is created as `(0, 0)` by `operator[]`, so the map is a function.  The two work lists are queues (see `Model/Worklist`); they are declared outside the loop over the sources and are empty after each
source, here they are local to a source.
-/

namespace NW.BcWork
open Spec

variable {α : Type}

/-- `nodeinfo`: experimental betweenness_centrality.hpp:133-139. -/
structure Node where
  l : Nat
  pc : Nat
  preds : List Nat
  succs : List Nat
  edge : Nat → Nat × Nat

/-- `emplace` of a set. -/
def insert (l : List Nat) (x : Nat) : List Nat := if x ∈ l then l else l ++ [x]

/-- Changing the node that a pointer points to. -/
def modify (vs : List Node) (i : Nat) (f : Node → Node) : Res (List Node) := do
  let x ← vget vs i
  vset vs i (f x)

/-- `g_cn`: experimental betweenness_centrality.hpp:145-147. -/
def guardCn (inf v : Nat) (ud vd : Node) : Bool := decide (vd.l ≤ ud.l) && decide ((ud.edge v).1 = ud.l) && decide (ud.l ≠ inf)

/-- `apply_cn`: experimental betweenness_centrality.hpp:148-151. -/
def applyCn (inf u v : Nat) (vs : List Node) : Res (List Node) :=
  modify vs u fun x => { x with succs := x.succs.erase v, edge := fun w => if w = v then (inf, (x.edge v).2) else x.edge w }

/-- `g_sp`: experimental betweenness_centrality.hpp:152. -/
def guardSp (ud vd : Node) : Bool := decide (ud.l + 1 < vd.l)

/-- `apply_spfu`: experimental betweenness_centrality.hpp:153-162. -/
def applySpfu (u v : Nat) (vs : List Node) : Res (List Node) := do
  let ud ← vget vs u
  let vs ← modify vs v fun x => { x with l := ud.l + 1, pc := ud.pc, preds := [], succs := [] }
  let vs ← modify vs u fun x => { x with succs := insert x.succs v }
  let vs ← modify vs v fun x => { x with preds := insert x.preds u }
  modify vs u fun x => { x with edge := fun w => if w = v then (x.l, x.pc) else x.edge w }

/-- `g_fu`: experimental betweenness_centrality.hpp:163. -/
def guardFu (v : Nat) (ud vd : Node) : Bool := decide (vd.l = ud.l + 1) && decide ((ud.edge v).1 ≠ ud.l)

/-- `apply_fu`: experimental betweenness_centrality.hpp:164-170. -/
def applyFu (M u v : Nat) (vs : List Node) : Res (List Node) := do
  let ud ← vget vs u
  let vs ← modify vs v fun x => { x with pc := (x.pc + ud.pc) % M }
  let vs ← modify vs u fun x => { x with succs := insert x.succs v }
  let vs ← modify vs v fun x => { x with preds := insert x.preds u }
  modify vs u fun x => { x with edge := fun w => if w = v then (x.l, x.pc) else x.edge w }

/-- `g_us`: experimental betweenness_centrality.hpp:171-173. -/
def guardUs (v : Nat) (ud vd : Node) : Bool := decide (ud.l = (ud.edge v).1) && decide (vd.l = ud.l + 1) && decide ((ud.edge v).2 ≠ ud.pc)

/-- `apply_us`: experimental betweenness_centrality.hpp:174-177. -/
def applyUs (M u v : Nat) (vs : List Node) : Res (List Node) := do
  let ud ← vget vs u
  let vs ← modify vs v fun x => { x with pc := (x.pc + ud.pc + (M - (ud.edge v).2)) % M }
  modify vs u fun x => { x with edge := fun w => if w = v then ((x.edge v).1, x.pc) else x.edge w }

/-- The body of the loop over the first work list: the nodes and the items that are pushed: experimental betweenness_centrality.hpp:202-258. -/
def work (M inf : Nat) (ord : Nat → List Nat → List Nat) (g : Rows α) (vs : List Node) (u v : Nat) : Res (List Node × List (Nat × Nat)) := do
  let vd ← vget vs v
  let ud ← vget vs u
  if guardCn inf v ud vd then
    let vs ← applyCn inf u v vs
    return (vs, [])
  else if guardSp ud vd then
    let tmp := ord v vd.preds
    let vs ← applySpfu u v vs
    let row ← vget g v
    return (vs, row.map (fun e => (v, e.1)) ++ tmp.map (fun w => (w, v)))
  else if guardFu v ud vd then
    let vs ← applyFu M u v vs
    let vd ← vget vs v
    if vd.succs.isEmpty then return (vs, [])
    else
      let row ← vget g v
      return (vs, row.map fun e => (v, e.1))
  else if guardUs v ud vd then
    let vs ← applyUs M u v vs
    let vd ← vget vs v
    return (vs, (ord v vd.succs).map fun w => (v, w))
  else return (vs, [])

/-- One round of that loop, with the content of the work list: experimental betweenness_centrality.hpp:199-259. -/
def body (M inf : Nat) (ord : Nat → List Nat → List Nat) (g : Rows α) (st : List Node × List (Nat × Nat)) : Res ((List Node × List (Nat × Nat)) ⊕ List Node) :=
  match st.2 with
  | [] => return .inr st.1
  | e :: q => do
    let r ← work M inf ord g st.1 e.1 e.2
    return .inl (r.1, q ++ r.2)

/-- The nodes at the beginning: experimental betweenness_centrality.hpp:183-192. -/
def init (M inf n s : Nat) : Res (List Node) :=
  modify (List.replicate n { l := inf, pc := 0, preds := [], succs := [], edge := fun _ => (0, 0) }) s fun x => { x with l := 0, pc := 1 % M }

/-- The second work list, `delta`, `succs_ct` and `centrality`. -/
structure Back where
  q : List Nat
  delta : List ℚ
  ct : List Nat
  cent : List ℚ

/-- The body of the loop over the predecessors of `v`: experimental betweenness_centrality.hpp:277-283. -/
def backPred (vs : List Node) (s v : Nat) (b : Back) (u : Nat) : Res Back := do
  let nu ← vget vs u
  let nv ← vget vs v
  let dv ← vget b.delta v
  let du ← vget b.delta u
  let delta ← vset b.delta u (du + (nu.pc : ℚ) / (nv.pc : ℚ) * (1 + dv))
  let c ← vget b.ct u
  let c' := if c = 0 then 2 ^ 64 - 1 else c - 1
  let ct ← vset b.ct u c'
  return { b with delta := delta, ct := ct, q := if c' = 0 ∧ u ≠ s then b.q ++ [u] else b.q }

/-- One round of the loop over the second work list: experimental betweenness_centrality.hpp:271-285. -/
def backBody (ord : Nat → List Nat → List Nat) (vs : List Node) (s : Nat) (b : Back) : Res (Back ⊕ List ℚ) :=
  match b.q with
  | [] => return .inr b.cent
  | v :: q => do
    let x ← vget vs v
    let b ← (ord v x.preds).foldlM (backPred vs s v) { b with q := q }
    let dv ← vget b.delta v
    let c ← vget b.cent v
    let cent ← vset b.cent v (c + dv)
    return .inl { b with cent := cent }

/-- The second work list before the loop: experimental betweenness_centrality.hpp:261-269. -/
def leaves (vs : List Node) : List Nat := (List.range vs.length).filter fun v => ((vs[v]?).map fun x => x.succs.isEmpty).getD false

/-- One source: experimental betweenness_centrality.hpp:181-286. -/
def source (M inf : Nat) (ord : Nat → List Nat → List Nat) (g : Rows α) (cent : List ℚ) (s : Nat) : Run (List ℚ) := do
  let vs ← Run.lift (init M inf g.length s)
  let row ← Run.lift (vget g s)
  let vs ← Run.loop (body M inf ord g) (vs, row.map fun e => (s, e.1))
  Run.loop (backBody ord vs s) { q := leaves vs, delta := List.replicate g.length 0, ct := vs.map fun x => x.succs.length, cent := cent }

/-- The scores before normalisation: experimental betweenness_centrality.hpp:130-286.  The order in which sets are visited may be another one for every source. -/
def scores (M inf : Nat) (ord : Nat → Nat → List Nat → List Nat) (g : Rows α) (sources : List Nat) : Run (List ℚ) :=
  sources.zipIdx.foldlM (fun cent si => source M inf (ord si.2) g cent si.1) (List.replicate g.length 0)

/-- `approx_betweenness_worklist_serial(A, sources)`: experimental betweenness_centrality.hpp:126-291.  The normalisation (288-290) is that of `brandes_bc`. -/
def worklistSerial (M inf : Nat) (ord : Nat → Nat → List Nat → List Nat) (g : Rows α) (sources : List Nat) : Run (List (Option ℚ)) := do
  let c ← scores M inf ord g sources
  Run.lift (Brandes.normalise c)

end NW.BcWork
