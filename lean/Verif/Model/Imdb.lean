import Verif.Model.Oracle

/-!
# Model of the example examples/imdb/imdb.cpp

The line numbers are those of imdb.cpp.  Reading the files, the timers, and the lines printed for one name while the credits are read (86-90) are not modelled: the data are three tables, with their headings as
first rows.  Vertex ids have `w` bits.
-/

namespace NW.Imdb
open Spec Oracle

variable {T N : Type} [DecidableEq T] [DecidableEq N]

/-- The columns that are used of the three tables: id, type and name of a title; id and name of a person; title, person and category of a credit: 40, 54, 66, 81-84. -/
structure Tables (T N : Type) where
  titles : List (T × String × String)
  names : List (N × String)
  principals : List (T × N × String)

/-- A `std::map` that is filled by `map[key] = i` for the rows with `keep`, in order: 43-47, 57-59.  The newest entry comes first. -/
def fill {K R : Type} (key : R → K) (keep : R → Bool) (rows : List R) : List (K × Nat) :=
  rows.zipIdx.foldl (fun m r => if keep r.1 then (key r.1, r.2) :: m else m) []

/-- `map[key]`: 0 for a key that is not there.  (That the key is then inserted has no further effect.) -/
def lookup {K : Type} [DecidableEq K] (m : List (K × Nat)) (k : K) : Nat := ((m.find? fun e => decide (e.1 = k)).map Prod.snd).getD 0

/-- `titles_map[title]`: 42-47, 99. -/
def title (t : Tables T N) (k : T) : Nat := lookup (fill (·.1) (fun r => r.2.1 == "movie") t.titles) k

/-- `names_map[name]`: 56-59, 99, 152-154. -/
def name (t : Tables T N) (k : N) : Nat := lookup (fill (·.1) (fun _ => true) t.names) k

/-- The list of edges: 75-102.  (The lines 91-98 are not compiled.) -/
def hyperedges (w : Nat) (t : Tables T N) : Res (EdgeList Unit) := do
  let el ← (t.principals.drop 1).foldlM (fun el r =>
    if r.2.2 == "actor" || r.2.2 == "actress" then el.pushBack w (title t r.1) (name t r.2.1) () else .ok el) (EdgeList.new 0).openForPushBack
  return el.closeForPushBack

/-- The graph that is searched: 75-143; the loops over the overlaps are those of oracle.cpp. -/
def prepare (o : Csr.Oracles Unit) (o' : Csr.Oracles Nat) (w : Nat) (t : Tables T N) : Res (Rows Nat) := do
  let edges ← hyperedges w t
  let G ← adjacency o true 0 edges
  let H ← adjacency o true 1 edges
  let s ← overlap w true G H
  adjacency o' false 0 s

/-- The program up to the search ends with `r`: 35-164.  `kb` is `"nm0000102"`. -/
def Searched (o : Csr.Oracles Unit) (o' : Csr.Oracles Nat) (w : Nat) (t : Tables T N) (kb : N) (r : Res Found) : Prop :=
  match prepare o o' w t with
  | .error f => r = .error f
  | .ok L => Search L (name t kb) r

/-- What is printed about a person: the number, and the rows of the tables that the lines name: 168-177, 179-188. -/
def report (t : Tables T N) (f : Found) (kb a : N) : Res (Nat × List ((N × String) × (N × String) × (T × String × String))) := do
  let d ← vget f.distance (name t a)
  let ls ← path t.titles t.names f (name t kb) d (name t a)
  return (d, ls)

end NW.Imdb
