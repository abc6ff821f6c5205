import Verif.Model.BoykovKolmogorov

/-!
# Concrete outcomes of `bk_maxflow`
-/

namespace NW.Bk
open Spec BackEdge Run

variable {R : Type} [CommRing R] [LinearOrder R]

def simCandidate (fuel : Nat) (t : Bool) (q : Nat) (rc brc : Loc) (st : St R) (b : Best) : Sim (candidate t q rc brc st b) := by
  unfold candidate
  exact Sim.bind (Sim.loop fuel _ _) fun x => by
    obtain ⟨d, st⟩ := x
    exact Sim.ite (Sim.bind (Sim.loop fuel _ _) fun st => Sim.ret _) (Sim.ret _)

def simAdoptEdge (fuel : Nat) (tol : R) (p : Nat) (t : Bool) (a : St R × Best) (l : Loc) : Sim (adoptEdge tol p t a l) := by
  unfold adoptEdge
  exact Sim.bind (Sim.lift _) fun x => by
    obtain ⟨st, c⟩ := x
    exact match c with
      | none => Sim.ret _
      | some (q, rc, brc) => simCandidate fuel t q rc brc st a.2

def simAdoptRound (fuel : Nat) (tol : R) (st : St R) : Sim (adoptRound tol st) := by
  unfold adoptRound
  exact match st.orphans with
    | [] => Sim.ret _
    | p :: rest => Sim.bind (Sim.lift _) fun t => Sim.bind (Sim.lift _) fun ls => Sim.bind (Sim.foldlM (simAdoptEdge fuel tol p t) ls _) fun x => by
        obtain ⟨st, b⟩ := x
        exact Sim.bind (Sim.lift _) fun st => Sim.ret _

def simRound (fuel : Nat) (tol : R) (st : St R) : Sim (round tol st) := by
  unfold round
  exact Sim.bind (Sim.loop fuel _ _) fun x => by
    obtain ⟨st, c⟩ := x
    exact match c with
      | none => Sim.ret _
      | some (rc, brc, cs, ct) =>
        Sim.bind (Sim.lift _) fun x => Sim.bind (Sim.loop fuel _ _) fun m => Sim.bind (Sim.loop fuel _ _) fun m => Sim.bind (Sim.lift _) fun net =>
        Sim.bind (Sim.loop fuel _ _) fun st => Sim.bind (Sim.loop fuel _ _) fun st => Sim.bind (Sim.loopR (simAdoptRound fuel tol) fuel st) fun st => Sim.ret _

def simBk (fuel : Nat) (tol : R) (net : BE R) (cap : List R) : Sim (bkMaxflow tol net cap) := by
  unfold bkMaxflow
  exact Sim.bind (Sim.lift _) fun st => Sim.bind (Sim.loopR (simRound fuel tol) fuel st) fun st => Sim.ret _

end NW.Bk
