import Verif.Model.Csr
import Verif.Model.Bfs

/-!
# Model of the examples examples/imdb/oracle.cpp, dblp.cpp, oracle+dblp.cpp and dns.cpp

Reading and parsing the files and the timers are not modelled: the data are a list of records.  Titles and names are of any types with equality; vertex ids have `w` bits.
-/

namespace NW.Oracle
open Spec

variable {T N K : Type} [DecidableEq T] [DecidableEq N] [DecidableEq K]

/-- One record of the data: `j["title"]`, and `j["cast"]` after `delink`: oracle.cpp:100-110. -/
structure Record (T N : Type) where
  title : T
  cast : List N

/-- `titles_map`, `titles`, `title_counter`, or `names_map`, `names`, `name_counter`: oracle.cpp:89-98.  The newest entry of the map comes first. -/
structure Dict (K : Type) where
  map : List (K × Nat)
  keys : List K
  counter : Nat
  deriving DecidableEq

/-- Before any record is read: oracle.cpp:89-98. -/
def Dict.empty : Dict K := ⟨[], [], 0⟩

/-- `map.find(key)`. -/
def Dict.find (d : Dict K) (k : K) : Option Nat := (d.map.find? fun e => decide (e.1 = k)).map Prod.snd

/-- `map[key]`: 0 for a key that is not there.  (That the key is then inserted has no further effect.) -/
def Dict.lookup (d : Dict K) (k : K) : Nat := (d.find k).getD 0

/-- Entering a title or a name that is new: oracle.cpp:103-107, 112-119. -/
def Dict.enter (d : Dict K) (k : K) : Res (Dict K) :=
  match d.find k with
  | some _ => return d
  | none => do
    let d := { map := (k, d.counter) :: d.map, keys := d.keys ++ [k], counter := d.counter + 1 }
    check (decide (d.keys.length = d.counter))
    let x ← vget d.keys (d.counter - 1)
    check (decide (x = k))
    return d

/-- The loop over the cast of a record: oracle.cpp:109-122. -/
def castStep (w : Nat) (titles : Dict T) (title : T) (s : Dict N × EdgeList Unit) (name : N) : Res (Dict N × EdgeList Unit) := do
  let names ← s.1.enter name
  let edges ← s.2.pushBack w (titles.lookup title) (names.lookup name) ()
  return (names, edges)

/-- The loop over the records: oracle.cpp:100-123. -/
def recordStep (w : Nat) (s : Dict T × Dict N × EdgeList Unit) (r : Record T N) : Res (Dict T × Dict N × EdgeList Unit) := do
  let titles ← s.1.enter r.title
  let p ← r.cast.foldlM (castStep w titles r.title) (s.2.1, s.2.2)
  return (titles, p.1, p.2)

/-- The hypergraph: oracle.cpp:87-124. -/
def hypergraph (w : Nat) (data : List (Record T N)) : Res (Dict T × Dict N × EdgeList Unit) := do
  let s ← data.foldlM (recordStep w) (Dict.empty, Dict.empty, (EdgeList.new 0).openForPushBack)
  return (s.1, s.2.1, s.2.2.closeForPushBack)

/-- The hypergraph of oracle+dblp.cpp:69-121: the second file is read after `close_for_push_back` (oracle+dblp.cpp:101). -/
def hypergraphTwo (w : Nat) (data₁ data₂ : List (Record T N)) : Res (Dict T × Dict N × EdgeList Unit) := do
  let s ← hypergraph w data₁
  let s ← data₂.foldlM (recordStep w) s
  return (s.1, s.2.1, s.2.2.closeForPushBack)

/-- Iterating over `g[u]` for all `u < g.size()`. -/
def rowsOf {α : Type} (g : Csr α) : Res (Rows α) := (List.range g.numVertices).mapM g.row

/-- An adjacency of an edge list: oracle.cpp:150-151, 178; `undirected` for the list of overlaps. -/
def adjacency {α : Type} [Inhabited α] (o : Csr.Oracles α) (directed : Bool) (idx : Nat) (el : EdgeList α) : Res (Rows α) := do
  let g ← Csr.ofEdgeList o directed idx false el
  rowsOf g

/-- The innermost loop: oracle.cpp:163-167; without the test `j > i`, dblp.cpp:121-123, if not `half`. -/
def overlapTitle (w : Nat) (half : Bool) (G : Rows Unit) (i : Nat) (el : EdgeList Nat) (k : Nat × Unit) : Res (EdgeList Nat) := do
  let r ← vget G k.1
  r.foldlM (fun el j => if half && !decide (i < j.1) then .ok el else el.pushBack w i j.1 k.1) el

/-- `s_overlap`: oracle.cpp:158-171, dblp.cpp:116-127. -/
def overlap (w : Nat) (half : Bool) (G H : Rows Unit) : Res (EdgeList Nat) := do
  let el ← (List.range H.length).foldlM (fun el i => do
    let r ← vget H i
    r.foldlM (overlapTitle w half G i) el) (EdgeList.new 0).openForPushBack
  return el.closeForPushBack

/-- The names and the graph that is searched: oracle.cpp:87-178. -/
def prepare (o : Csr.Oracles Unit) (o' : Csr.Oracles Nat) (w : Nat) (half : Bool) (data : List (Record T N)) : Res (Dict T × Dict N × Rows Nat) := do
  let (titles, names, edges) ← hypergraph w data
  let G ← adjacency o true 0 edges
  let H ← adjacency o true 1 edges
  let s ← overlap w half G H
  let L ← adjacency o' false 0 s
  return (titles, names, L)

/-- The arrays: oracle.cpp:185-187. -/
structure Found where
  distance : List Nat
  parents : List Nat
  together : List Nat
  deriving DecidableEq

/-- The body of the search: oracle.cpp:189-193. -/
def note (f : Found) (e : Nat × Nat × Nat) : Res Found := do
  let d ← vget f.distance e.1
  let distance ← vset f.distance e.2.1 (d + 1)
  let parents ← vset f.parents e.2.1 e.1
  let together ← vset f.together e.2.1 e.2.2
  return ⟨distance, parents, together⟩

/-- The search ends with `o`: oracle.cpp:185-193.  The arrays do not influence the range. -/
def Search (L : Rows Nat) (kb : Nat) (o : Res Found) : Prop :=
  ∃ es, Bfs.ERangeVisits L kb es ∧
    o = (es >>= fun es => es.foldlM note ⟨List.replicate L.length 0, List.replicate L.length 0, List.replicate L.length 0⟩)

/-- The program, up to the search, ends with `r`: oracle.cpp:87-193.  `kb` is `"Kevin Bacon"`. -/
def Searched (o : Csr.Oracles Unit) (o' : Csr.Oracles Nat) (w : Nat) (half : Bool) (data : List (Record T N)) (kb : N) (r : Res (Dict T × Dict N × Found)) : Prop :=
  match prepare o o' w half data with
  | .error f => r = .error f
  | .ok (titles, names, L) => ∃ q, Search L (names.lookup kb) q ∧ r = (q >>= fun f => .ok (titles, names, f))

/-- The lines printed by the loop in `path_to_bacon_idx`: actor, other actor, title: oracle.cpp:199-206. -/
def path (titles : List T) (names : List N) (f : Found) (kb : Nat) : Nat → Nat → Res (List (N × N × T))
  | d, a =>
    if a = kb then .ok []
    else do
      let x ← vget names a
      let p ← vget f.parents a
      let y ← vget names p
      let k ← vget f.together a
      let t ← vget titles k
      match d with
      | 0 => return [(x, y, t)]
      | d + 1 => do
        let ls ← path titles names f kb d p
        return (x, y, t) :: ls

/-- What `path_to_bacon(name)` prints: the name, the number, the lines: oracle.cpp:195-215.  `s` is what the search has ended with. -/
def report (s : Dict T × Dict N × Found) (kb name : N) : Res (N × Nat × List (N × N × T)) := do
  let a := s.2.1.lookup name
  let x ← vget s.2.1.keys a
  let d ← vget s.2.2.distance a
  let ls ← path s.1.keys s.2.1.keys s.2.2 (s.2.1.lookup kb) d a
  return (x, d, ls)

/-- `max_distance`: oracle.cpp:219. -/
def furthest (f : Found) : Res Nat :=
  match f.distance with
  | [] => .error .outOfBounds
  | d :: ds => .ok (ds.foldl Nat.max d)

/-! ## dns.cpp -/

/-- `K[j]++` in a `std::map`: dns.cpp:67. -/
def bumpKey (j : Nat) : List (Nat × Nat) → List (Nat × Nat)
  | [] => [(j, 1)]
  | e :: m => if j < e.1 then (j, 1) :: e :: m else if e.1 < j then e :: bumpKey j m else (e.1, e.2 + 1) :: m

/-- `K` for one `i`: dns.cpp:62-70. -/
def overlapCounts (G H : Rows Unit) (i : Nat) : Res (List (Nat × Nat)) := do
  let r ← vget H i
  r.foldlM (fun K k => do
    let c ← vget G k.1
    return c.foldl (fun K j => if i < j.1 then bumpKey j.1 K else K) K) []

/-- The loop over `i` with the threshold `s`: dns.cpp:47-79.  The critical sections of the iterations are executed one after the other, in the order `sched`. -/
def overlapAtLeast (sched : List Nat → List Nat) (w s : Nat) (G H : Rows Unit) : Res (EdgeList Unit) := do
  let el ← (sched (List.range H.length)).foldlM (fun el i => do
    let K ← overlapCounts G H i
    K.foldlM (fun el e => if s ≤ e.2 then el.pushBack w i e.1 () else .ok el) el) (EdgeList.new 0).openForPushBack
  return el.closeForPushBack

/-- dns.cpp:35-86, given the list of edges that `read_mm` has returned. -/
def dns (o : Csr.Oracles Unit) (sched : List Nat → List Nat) (w : Nat) (edges : EdgeList Unit) : Res (Rows Unit) := do
  let H ← adjacency o true 0 edges
  let G ← adjacency o true 1 edges
  let s ← overlapAtLeast sched w 2 G H
  adjacency o false 0 s

/-! ## delink -/

/-- The position of the first occurrence of `pat` in `s`, `s.find(pat)`. -/
def findSub (pat : List Char) : List Char → Option Nat
  | [] => if pat = [] then some 0 else none
  | c :: s => if pat.isPrefixOf (c :: s) then some 0 else (findSub pat s).map (· + 1)

/-- `delink(link)`: oracle.cpp:39-54.  `npos - opening - 2` and, if `]]` comes first, the difference that wraps around are longer than what is left of the string
(whose length is far below `2 ^ 64`), so `substr` takes all of it. -/
def delink (link : List Char) : List Char :=
  match findSub ['[', '['] link with
  | none => link
  | some opening =>
    let rest := link.drop (opening + 2)
    let delinked := match findSub [']', ']'] link with
      | none => rest
      | some closing => if opening + 2 ≤ closing then rest.take (closing - opening - 2) else rest
    match findSub ['|'] delinked with
    | none => delinked
    | some bar => delinked.drop (bar + 1)

end NW.Oracle
