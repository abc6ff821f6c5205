import Verif.Spec.Walk

/-! # Specification: a graph without its parallel edges -/

namespace NW.Spec

/-- The graph with one edge from `u` to `w` for every pair that has an edge: of the edges to a vertex the first one is kept. -/
def simple {α : Type} (g : Rows α) : Rows Unit := g.map fun row => (row.map Prod.fst).eraseDups.map fun w => (w, ())

end NW.Spec
