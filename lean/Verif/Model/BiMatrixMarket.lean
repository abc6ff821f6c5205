import Verif.Model.MatrixMarket
import Verif.Model.BiAdjacency

/-!
# Model of the bipartite part of io/mmio.hpp
-/

namespace NW.MM

/-- The loop of `mm_fill` for `bi_edge_list<directed>` and `bi_edge_list<directed, T>`: mmio.hpp:44-57, 65-83. -/
def fillBi {α : Type} (V : Val α) (w : Nat) (symmetric pattern : Bool) : Nat → List Char → BiEdgeList α → Res (BiEdgeList α)
  | 0, _, el => return el
  | n + 1, cs, el => do
    let line := (getline cs).getD ([], [])
    let e ← parseEntry V pattern line.1
    let el ← el.pushBack w (decr e.1) (decr e.2.1) e.2.2
    let el ← if symmetric && decide (e.1 ≠ e.2.1) then el.pushBack w (decr e.2.1) (decr e.1) e.2.2 else pure el
    fillBi V w symmetric pattern n line.2 el

/-- `mm_fill` for `bi_edge_list<directed>` and `bi_edge_list<directed, T>`: mmio.hpp:41-84. -/
def mmFillBi {α : Type} (V : Val α) (w : Nat) (count : Nat) (symmetric pattern : Bool) (cs : List Char) (el : BiEdgeList α) : Res (BiEdgeList α) := do
  let el ← fillBi V w symmetric pattern count cs el.openForPushBack
  return el.closeForPushBack

/-- `read_mm<directed, Attributes..., bi_edge_list<directed, Attributes...>>(filename)`: mmio.hpp:219-275.  `is_unipartite<edge_list_t>` is false for every edge list, since it is asked of
the list instead of its base class.  Simplification: a call cannot name `edge_list_t`, which follows a parameter pack and is not deducible; the body is modelled as if it could. -/
def readBi {α : Type} (V : Val α) (w : Nat) (text : List Char) : Res (BiEdgeList α) := do
  let p ← readPrelude text
  if p.rows ≠ p.cols then
    if p.symmetric then .error .terminated
    else mmFillBi V w p.count p.symmetric p.pattern p.rest (BiEdgeList.new p.rows p.cols)
  else .error .terminated

/-- The line written for one edge of row `u` of a `biadjacency<idx>`: mmio.hpp:461-463. -/
def biText {α : Type} (V : Val α) (w : Nat) (weighted : Bool) (idx u : Nat) (e : Nat × α) : List Char :=
  showNat (u + (1 - idx)) ++ ' ' :: showNat ((e.1 + (1 - idx)) % 2 ^ w) ++ (if weighted then ' ' :: V.wr e.2 else []) ++ ['\n']

/-- `adjacency_stream` and `write_mm` for `biadjacency<idx, Attributes...>`: mmio.hpp:452-482.  Simplification: the number of edges, an `int`, does not overflow. -/
def writeBi {α : Type} (V : Val α) (w : Nat) (weighted : Bool) (idx : Nat) (wType : List Char) (g : BiCsr α) (fileSymmetry : List Char) : Res (List Char) := do
  let rows ← g.csr.outer
  return "%%MatrixMarket matrix coordinate ".toList ++ wType ++ ' ' :: fileSymmetry ++ "\n%%\n".toList
    ++ showNat (g.numVertices 0) ++ ' ' :: showNat (g.numVertices 1) ++ ' ' :: showNat (rows.foldl (fun a b => a + b.length) 0) ++ '\n' ::
    rows.zipIdx.flatMap fun r => r.1.flatMap fun e => biText V w weighted idx r.2 e

end NW.MM
