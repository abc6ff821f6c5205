import Verif.Spec.Printed

/-!
# Specification: the log of a benchmark

The log is a table of words: a heading, and a line for each measurement, which says where and how the program was compiled and run and what was measured.
-/

namespace NW.Spec

/-- What the lines of one run have in common. -/
structure RunInfo where
  uuid : List Char
  branch : List Char
  revision : List Char
  cxx : List Char
  cxxId : List Char
  cxxVer : List Char
  build : List Char
  tbbMalloc : List Char
  date : List Char
  host : List Char

/-- A decimal numeral with a sign. -/
def IntNumeral (t : List Char) (z : Int) : Prop := Numeral t z.toNat ∧ 0 ≤ z ∨ ∃ u, t = '-' :: u ∧ Numeral u z.natAbs ∧ z < 0

/-- The line of a measurement says all this. -/
def LogLine (info : RunInfo) (algorithm graph : List Char) (version threads : Int) (values : List (List Char)) (l : List Char) : Prop :=
  ∃ v t, IntNumeral v version ∧ IntNumeral t threads ∧
    words l = [info.uuid, "NWGRAPH".toList, info.branch, info.revision, info.cxx, info.cxxId, info.cxxVer, info.build, info.tbbMalloc, info.date, info.host, algorithm, 'v' :: v, t, graph] ++ values

/-- The heading names the columns. -/
def LogHeading (names : List (List Char)) (l : List Char) : Prop :=
  words l = ["UUID".toList, "Library".toList, "Branch".toList, "Revision".toList, "CXX".toList, "CXX_ID".toList, "CXX_VER".toList, "Build".toList, "TBBMALLOC".toList, "Date".toList, "Host".toList, "Benchmark".toList, "Version".toList, "Threads".toList, "Graph".toList] ++ names

/-- In the line, the `k`-th word of `ts` stands at the `k`-th of the positions. -/
def StandAt (positions : List Nat) (ts : List (List Char)) (l : List Char) : Prop :=
  List.Forall₂ (fun p t => (l.drop p).take t.length = t) positions ts

end NW.Spec
