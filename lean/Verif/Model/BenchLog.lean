import Verif.Model.Bench

/-!
# Model of the log of the benchmarks: bench/Log.hpp

Strings are lists of characters.  The random letters, the date, the results of the git commands and the strings that the compiler puts in are inputs; the printed values of a sample are texts, since
the conversion of `double` is not modelled.  `precision` and `setf` are set back at the end of each line.
-/

namespace NW.BenchLog
open MM (showNat)

/-- What the constructor finds. -/
structure Machine where
  /-- `std::generate(uuid_.begin(), ...)`, Log.hpp:55-59: 24 letters -/
  uuid : List Char
  /-- the name of the machine -/
  hostName : List Char
  date : List Char
  /-- what `git rev-parse` writes, if it succeeds -/
  gitBranch : Option (List Char)
  /-- what `git log` writes, if it succeeds -/
  gitLog : Option (List Char)
  /-- whether `git diff` finds changes -/
  gitDirty : Bool
  cxx : List Char
  cxxId : List Char
  cxxVer : List Char
  build : List Char
  tbbMalloc : List Char

/-- The members of `Log`: Log.hpp:40-52. -/
structure Log where
  uuid : List Char
  host : List Char
  date : List Char
  gitBranch : List Char
  gitVersion : List Char
  cxx : List Char
  cxxId : List Char
  cxxVer : List Char
  build : List Char
  tbbMalloc : List Char

/-- `gethostname(host_, sizeof(host_))` with 20 characters, and reading `host_` as a string: a longer name leaves no room for the terminating zero, so that reading it goes past the array: Log.hpp:61-64, 150. -/
def hostText (name : List Char) : Res (List Char) := if name.length + 1 ≤ 20 then .ok name else .error .outOfBounds

/-- `if (!std::system(...)) std::ifstream(...) >> git_branch_;`: Log.hpp:82-84. -/
def branch (m : Machine) : List Char := match m.gitBranch with
  | some t => Bench.firstWord t
  | none => []

/-- `git_version_`: Log.hpp:87-92. -/
def revision (m : Machine) : List Char := match m.gitLog with
  | some t => Bench.firstWord t ++ (if m.gitDirty then ['+'] else [])
  | none => []

/-- `Log(path)`: Log.hpp:54-100. -/
def Log.make (m : Machine) : Res Log := do
  return ⟨m.uuid, ← hostText m.hostName, m.date, branch m, revision m, m.cxx, m.cxxId, m.cxxVer, m.build, m.tbbMalloc⟩

/-- `std::max(sizeof(value), sizeof(name)) + 1`: Log.hpp:95-99; `sizeof` counts the terminating zero. -/
def columnSize (value name : List Char) : Nat := Nat.max (value.length + 1) (name.length + 1) + 1

/-- `os_ << std::setw(w) << std::left << s`. -/
def padded (w : Nat) (s : List Char) : List Char := s ++ List.replicate (w - s.length) ' '

/-- A line of columns, given by width and text. -/
def lineOf (columns : List (Nat × List Char)) : List Char := columns.flatMap (fun c => padded c.1 c.2) ++ ['\n']

/-- `log_result_header(times...)`: Log.hpp:103-127. -/
def header (l : Log) (times : List (List Char)) : List Char :=
  lineOf ([(24 + 2, "UUID".toList), (10, "Library".toList), (10, "Branch".toList), (10, "Revision".toList), (columnSize l.cxx "CXX".toList, "CXX".toList),
    (columnSize l.cxxId "CXX_ID".toList, "CXX_ID".toList), (columnSize l.cxxVer "CXX_VER".toList, "CXX_VER".toList), (columnSize l.build "Build".toList, "Build".toList),
    (columnSize l.tbbMalloc "TBBMALLOC".toList, "TBBMALLOC".toList), (15, "Date".toList), (20, "Host".toList), (10, "Benchmark".toList), (10, "Version".toList), (10, "Threads".toList), (32, "Graph".toList)] ++
    times.map (fun t => (20, t)))

/-- `path::filename()`: what follows the last slash. -/
def filename (path : List Char) : List Char := (path.reverse.takeWhile (· ≠ '/')).reverse

/-- `path::stem()`: the file name without the last dot and what follows it, unless this dot is the first character; `.` and `..` have no extension. -/
def stem (path : List Char) : List Char :=
  let f := filename path
  let ext := f.reverse.takeWhile (· ≠ '.')
  if f = "..".toList ∨ f.length ≤ ext.length + 1 then f else f.take (f.length - ext.length - 1)

/-- The text in the column Graph: Log.hpp:134-138. -/
def graphName (path : List Char) : List Char :=
  let s := stem path
  let n := (s.takeWhile (· ≠ '_')).length
  if n < s.length then s.take n else s

/-- `long` as text. -/
def showInt (z : Int) : List Char := if z < 0 then '-' :: showNat z.natAbs else showNat z.toNat

/-- `operator()(benchmark, version, threads, graph, times...)`: Log.hpp:130-160. -/
def row (l : Log) (benchmark version : List Char) (threads : Int) (graph : List Char) (times : List (List Char)) : List Char :=
  lineOf ([(24 + 2, l.uuid), (10, "NWGRAPH".toList), (10, l.gitBranch), (10, l.gitVersion), (columnSize l.cxx "CXX".toList, l.cxx), (columnSize l.cxxId "CXX_ID".toList, l.cxxId),
    (columnSize l.cxxVer "CXX_VER".toList, l.cxxVer), (columnSize l.build "Build".toList, l.build), (columnSize l.tbbMalloc "TBBMALLOC".toList, l.tbbMalloc), (15, l.date), (20, l.host),
    (10, benchmark), (10, version), (10, showInt threads), (32, graphName graph)] ++ times.map (fun t => (20, t)))

/-- An entry of the map of samples: the key and, for each sample, its printed values. -/
structure Entry where
  file : List Char
  id : Int
  threads : Int
  samples : List (List (List Char))

/-- `print(algorithm, samples, header, headers...)`: Log.hpp:163-178. -/
def print (l : Log) (algorithm : List Char) (samples : List Entry) (withHeader : Bool) (headers : List (List Char)) : List Char :=
  (if withHeader then header l headers else []) ++
    samples.flatMap fun e => e.samples.flatMap fun values => row l algorithm ('v' :: showInt e.id) e.threads e.file values

/-- Directories and the contents of files; a path is the list of its parts. -/
structure Disk where
  dirs : List (List (List Char))
  file : List (List Char) → Option (List Char)

/-- Opening the file: `create_directory(parent)` makes one directory and throws if the one around it does not exist: Log.hpp:66-72.  The path must not be that of a directory. -/
def openFile (d : Disk) (path : List (List Char)) : Res Disk :=
  let parent := path.dropLast
  if parent = [] ∨ parent ∈ d.dirs then .ok d
  else if parent.dropLast = [] ∨ parent.dropLast ∈ d.dirs then .ok { d with dirs := parent :: d.dirs }
  else .error .terminated

/-- `log(algorithm, path, samples, header, headers...)` to a file: Log.hpp:182-185; `std::ofstream::app` appends. -/
def logFile (m : Machine) (d : Disk) (path : List (List Char)) (algorithm : List Char) (samples : List Entry) (withHeader : Bool) (headers : List (List Char)) : Res Disk := do
  let d ← openFile d path
  let l ← Log.make m
  let text := print l algorithm samples withHeader headers
  return { d with file := fun q => if q = path then some ((d.file path).getD [] ++ text) else d.file q }

end NW.BenchLog
