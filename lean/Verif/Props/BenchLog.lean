import Verif.Model.BenchLog
import Verif.Spec.BenchLog
import Verif.Props.Stream
import Verif.Props.Bench

/-!
# C137: the log of a benchmark is a table of all measurements
-/

namespace NW.BenchLog
open Spec MM Stream

/-- A word that leaves room for a blank in a column. -/
def Short (w : Nat) (t : List Char) : Prop := IsWord t ∧ t.length < w

/-- The columns of a line without its end. -/
def body (columns : List (Nat × List Char)) : List Char := columns.flatMap fun c => padded c.1 c.2

theorem padded_short {w : Nat} {t : List Char} (h : t.length < w) : padded w t = t ++ ' ' :: List.replicate (w - t.length - 1) ' ' := by
  unfold padded
  congr 1
  obtain ⟨k, hk⟩ : ∃ k, w - t.length = k + 1 := ⟨w - t.length - 1, by omega⟩
  rw [hk]; rfl

theorem words_padded {w : Nat} {t : List Char} (h : Short w t) (rest : List Char) : words (padded w t ++ rest) = t :: words rest := by
  rw [padded_short h.2, List.append_assoc, List.cons_append, words_word h.1.1 h.1.2 (.inr ⟨' ', _, rfl, rfl⟩)]
  congr 1
  exact words_blank_append (pre := ' ' :: List.replicate _ ' ') (by
    intro c hc
    rcases List.mem_cons.mp hc with rfl | hc
    · rfl
    · rw [(List.mem_replicate.mp hc).2]; rfl) rest

theorem words_body {columns : List (Nat × List Char)} (h : ∀ c ∈ columns, Short c.1 c.2) (rest : List Char) : words (body columns ++ rest) = columns.map (·.2) ++ words rest := by
  induction columns with
  | nil => rfl
  | cons c columns ih =>
    show words (padded c.1 c.2 ++ body columns ++ rest) = _
    rw [List.append_assoc, words_padded (h c (by simp)), ih fun x hx => h x (by simp [hx])]
    rfl

theorem body_newline {columns : List (Nat × List Char)} (h : ∀ c ∈ columns, IsWord c.2) : '\n' ∉ body columns := by
  intro hm
  obtain ⟨c, hc, hx⟩ := List.mem_flatMap.mp hm
  rcases List.mem_append.mp hx with hx | hx
  · exact not_newline (h c hc).2 hx
  · have := (List.mem_replicate.mp hx).2
    revert this; decide

/-- Where the columns begin. -/
def offsets : Nat → List Nat → List Nat
  | _, [] => []
  | n, w :: ws => n :: offsets (n + w) ws

theorem standAt_body {columns : List (Nat × List Char)} (h : ∀ c ∈ columns, c.2.length ≤ c.1) : ∀ (pre : List Char), StandAt (offsets pre.length (columns.map (·.1))) (columns.map (·.2)) (pre ++ body columns) := by
  induction columns with
  | nil => intro pre; exact .nil
  | cons c columns ih =>
    intro pre
    refine .cons ?_ ?_
    · show ((pre ++ (padded c.1 c.2 ++ body columns)).drop pre.length).take c.2.length = c.2
      rw [List.drop_left]
      unfold padded
      rw [List.append_assoc, List.take_left]
    · have hl : (padded c.1 c.2).length = c.1 := by
        have := h c (by simp)
        unfold padded
        rw [List.length_append, List.length_replicate]; omega
      have := ih (fun x hx => h x (by simp [hx])) (pre ++ padded c.1 c.2)
      rw [List.length_append, hl, List.append_assoc] at this
      exact this

theorem showInt_numeral (z : Int) : IntNumeral (showInt z) z := by
  unfold showInt
  by_cases hz : z < 0
  · rw [if_pos hz]
    exact .inr ⟨_, rfl, showNat_numeral _, hz⟩
  · rw [if_neg hz]
    exact .inl ⟨showNat_numeral _, by omega⟩

theorem showInt_word (z : Int) : IsWord (showInt z) := by
  unfold showInt
  split
  · refine ⟨by simp, ?_⟩
    intro c hc
    rcases List.mem_cons.mp hc with rfl | hc
    · rfl
    · exact (isWord_showNat _).2 c hc
  · exact isWord_showNat _

theorem word_cons {c : Char} {t : List Char} (hc : blank c = false) (h : IsWord t) : IsWord (c :: t) :=
  ⟨by simp, fun x hx => by rcases List.mem_cons.mp hx with rfl | hx; exacts [hc, h.2 x hx]⟩

/-- The measurements, in the order of the map and of the trials. -/
def measurements (samples : List Entry) : List (Entry × List (List Char)) := samples.flatMap fun e => e.samples.map fun values => (e, values)

/-- What is known about the run. -/
def infoOf (m : Machine) (b r : List Char) : RunInfo := ⟨m.uuid, b, r ++ (if m.gitDirty then ['+'] else []), m.cxx, m.cxxId, m.cxxVer, m.build, m.tbbMalloc, m.date, m.hostName⟩

/-- The machine is such that its descriptions fit the columns: git works and answers with the branch `b` and the revision `r`. -/
structure FitsRun (m : Machine) (b r : List Char) : Prop where
  uuid : IsWord m.uuid ∧ m.uuid.length = 24
  host : Short 20 m.hostName
  date : Short 15 m.date
  branch : Short 10 b ∧ ∃ t ts, m.gitBranch = some t ∧ words t = b :: ts
  revision : IsWord r ∧ (r ++ (if m.gitDirty then ['+'] else [])).length < 10 ∧ ∃ t ts, m.gitLog = some t ∧ words t = r :: ts
  cxx : IsWord m.cxx
  cxxId : IsWord m.cxxId
  cxxVer : IsWord m.cxxVer
  build : IsWord m.build
  tbbMalloc : IsWord m.tbbMalloc

/-- The measurement fits the columns. -/
structure FitsEntry (e : Entry) (values : List (List Char)) : Prop where
  id : (showInt e.id).length < 9
  threads : (showInt e.threads).length < 10
  graph : Short 32 (graphName e.file)
  values : ∀ t ∈ values, Short 20 t

theorem columnSize_value (v n : List Char) : v.length < columnSize v n := by
  unfold columnSize
  have : v.length + 1 ≤ Nat.max (v.length + 1) (n.length + 1) := Nat.le_max_left _ _
  omega

theorem columnSize_name (v n : List Char) : n.length < columnSize v n := by
  unfold columnSize
  have : n.length + 1 ≤ Nat.max (v.length + 1) (n.length + 1) := Nat.le_max_right _ _
  omega

theorem make_ok {m : Machine} {b r : List Char} (h : FitsRun m b r) :
    Log.make m = .ok ⟨m.uuid, m.hostName, m.date, b, (infoOf m b r).revision, m.cxx, m.cxxId, m.cxxVer, m.build, m.tbbMalloc⟩ := by
  obtain ⟨-, t, ts, h1, h2⟩ := h.branch
  obtain ⟨-, -, t', ts', h3, h4⟩ := h.revision
  have hh : hostText m.hostName = .ok m.hostName := by
    unfold hostText
    rw [if_pos (by have := h.host.2; omega)]
  have hb : BenchLog.branch m = b := by
    unfold BenchLog.branch
    rw [h1]; exact Bench.firstWord_words h2
  have hr : BenchLog.revision m = (infoOf m b r).revision := by
    unfold BenchLog.revision
    rw [h3]; dsimp only
    rw [Bench.firstWord_words h4]; rfl
  unfold Log.make
  rw [hh, hb, hr]; rfl

/-- The widths of the columns, for `k` values. -/
def widths (m : Machine) (k : Nat) : List Nat :=
  [26, 10, 10, 10, columnSize m.cxx "CXX".toList, columnSize m.cxxId "CXX_ID".toList, columnSize m.cxxVer "CXX_VER".toList, columnSize m.build "Build".toList, columnSize m.tbbMalloc "TBBMALLOC".toList,
    15, 20, 10, 10, 10, 32] ++ List.replicate k 20

/-- The words of the heading and of a line. -/
def headingWords (names : List (List Char)) : List (List Char) :=
  ["UUID".toList, "Library".toList, "Branch".toList, "Revision".toList, "CXX".toList, "CXX_ID".toList, "CXX_VER".toList, "Build".toList, "TBBMALLOC".toList, "Date".toList, "Host".toList, "Benchmark".toList, "Version".toList, "Threads".toList, "Graph".toList] ++ names

def rowWords (info : RunInfo) (algorithm : List Char) (e : Entry) (values : List (List Char)) : List (List Char) :=
  [info.uuid, "NWGRAPH".toList, info.branch, info.revision, info.cxx, info.cxxId, info.cxxVer, info.build, info.tbbMalloc, info.date, info.host, algorithm, 'v' :: showInt e.id, showInt e.threads, graphName e.file] ++ values

theorem short_zip {ws : List Nat} {ts : List (List Char)} (h : List.Forall₂ Short ws ts) : (∀ c ∈ ws.zip ts, Short c.1 c.2) ∧ (ws.zip ts).map (·.1) = ws ∧ (ws.zip ts).map (·.2) = ts := by
  induction h with
  | nil => exact ⟨(fun c hc => by cases hc), rfl, rfl⟩
  | cons h1 _ ih =>
    obtain ⟨i1, i2, i3⟩ := ih
    refine ⟨?_, by simp [i2], by simp [i3]⟩
    intro c hc
    rcases List.mem_cons.mp hc with rfl | hc
    · exact h1
    · exact i1 c hc

theorem zip_replicate (ts : List (List Char)) (w : Nat) : (List.replicate ts.length w).zip ts = ts.map fun t => (w, t) := by
  induction ts with
  | nil => rfl
  | cons t ts ih => rw [List.length_cons, List.replicate_succ, List.zip_cons_cons, ih]; rfl

theorem short_replicate {ts : List (List Char)} {w : Nat} (h : ∀ t ∈ ts, Short w t) : List.Forall₂ Short (List.replicate ts.length w) ts := by
  induction ts with
  | nil => exact .nil
  | cons t ts ih => exact .cons (h t (by simp)) (ih fun x hx => h x (by simp [hx]))

theorem forall₂_append' {α β : Type} {R : α → β → Prop} {a c : List α} {b d : List β} (h1 : List.Forall₂ R a b) (h2 : List.Forall₂ R c d) : List.Forall₂ R (a ++ c) (b ++ d) := by
  induction h1 with
  | nil => exact h2
  | cons h _ ih => exact .cons h ih

/-- Lines whose words fit their columns. -/
theorem line_ok {ws : List Nat} {ts : List (List Char)} (h : List.Forall₂ Short ws ts) : ∃ l, lineOf (ws.zip ts) = l ++ ['\n'] ∧ '\n' ∉ l ∧ words l = ts ∧ StandAt (offsets 0 ws) ts l := by
  obtain ⟨h1, h2, h3⟩ := short_zip h
  refine ⟨body (ws.zip ts), rfl, body_newline fun c hc => (h1 c hc).1, ?_, ?_⟩
  · have := words_body h1 []
    rw [List.append_nil, words, List.append_nil, h3] at this
    exact this
  · have := standAt_body (fun c hc => Nat.le_of_lt (h1 c hc).2) []
    rw [h2, h3] at this
    exact this

theorem heading_short {m : Machine} (names : List (List Char)) (hn : ∀ t ∈ names, Short 20 t) : List.Forall₂ Short (widths m names.length) (headingWords names) := by
  have lit : ∀ {w : Nat} {t : List Char}, t ≠ [] → (∀ c ∈ t, blank c = false) → t.length < w → Short w t := fun h1 h2 h3 => ⟨⟨h1, h2⟩, h3⟩
  refine forall₂_append' ?_ (short_replicate hn)
  refine .cons (lit (by decide) (by decide) (by decide)) (.cons (lit (by decide) (by decide) (by decide)) (.cons (lit (by decide) (by decide) (by decide)) (.cons (lit (by decide) (by decide) (by decide)) ?_)))
  refine .cons (lit (by decide) (by decide) (columnSize_name _ _)) (.cons (lit (by decide) (by decide) (columnSize_name _ _)) (.cons (lit (by decide) (by decide) (columnSize_name _ _)) (.cons (lit (by decide) (by decide) (columnSize_name _ _)) (.cons (lit (by decide) (by decide) (columnSize_name _ _)) ?_))))
  exact .cons (lit (by decide) (by decide) (by decide)) (.cons (lit (by decide) (by decide) (by decide)) (.cons (lit (by decide) (by decide) (by decide)) (.cons (lit (by decide) (by decide) (by decide)) (.cons (lit (by decide) (by decide) (by decide)) (.cons (lit (by decide) (by decide) (by decide)) .nil)))))

theorem row_short {m : Machine} {b r : List Char} (h : FitsRun m b r) {algorithm : List Char} (ha : Short 10 algorithm) {e : Entry} {values : List (List Char)} (he : FitsEntry e values) :
    List.Forall₂ Short (widths m values.length) (rowWords (infoOf m b r) algorithm e values) := by
  have hrev : IsWord (infoOf m b r).revision := by
    show IsWord (r ++ if m.gitDirty then ['+'] else [])
    cases m.gitDirty with
    | false => simpa using h.revision.1
    | true =>
      refine ⟨by simp, fun c hc => ?_⟩
      rcases List.mem_append.mp hc with hc | hc
      · exact h.revision.1.2 c hc
      · rw [List.mem_singleton.mp hc]; rfl
  refine forall₂_append' ?_ (short_replicate he.values)
  refine .cons ⟨h.uuid.1, by show m.uuid.length < 26; rw [h.uuid.2]; decide⟩ (.cons ⟨⟨by decide, by decide⟩, by decide⟩ (.cons h.branch.1 (.cons ⟨hrev, h.revision.2.1⟩ ?_)))
  refine .cons ⟨h.cxx, columnSize_value _ _⟩ (.cons ⟨h.cxxId, columnSize_value _ _⟩ (.cons ⟨h.cxxVer, columnSize_value _ _⟩ (.cons ⟨h.build, columnSize_value _ _⟩ (.cons ⟨h.tbbMalloc, columnSize_value _ _⟩ ?_))))
  exact .cons h.date (.cons h.host (.cons ha (.cons ⟨word_cons rfl (showInt_word _), by have := he.id; simp; omega⟩ (.cons ⟨showInt_word _, he.threads⟩ (.cons he.graph .nil)))))

/-- **C137.** If everything fits the columns, the log is a heading (if wanted) and a line for each measurement, in their order; each line says, as words, how the program was compiled and run and what was measured, and its words stand below those of the heading.
Missing: words that do not fit, for which it is false (below). -/
theorem log_table_partial {m : Machine} {b r : List Char} (h : FitsRun m b r) {algorithm : List Char} (ha : Short 10 algorithm) (samples : List Entry) (hs : ∀ x ∈ measurements samples, FitsEntry x.1 x.2) (withHeader : Bool) (names : List (List Char))
    (hn : ∀ t ∈ names, Short 20 t) (hk : ∀ x ∈ measurements samples, x.2.length = names.length) :
    ∃ l text heading, Log.make m = .ok l ∧ print l algorithm samples withHeader names = heading ++ text ∧
      ∃ positions,
        (if withHeader then ∃ line, heading = line ++ ['\n'] ∧ '\n' ∉ line ∧ LogHeading names line ∧ StandAt positions (words line) line else heading = []) ∧
        Printed (fun x line => LogLine (infoOf m b r) algorithm (graphName x.1.file) x.1.id x.1.threads x.2 line ∧ StandAt positions (words line) line) (measurements samples) text := by
  refine ⟨_, _, _, make_ok h, rfl, offsets 0 (widths m names.length), ?_, ?_⟩
  · cases withHeader with
    | false => rfl
    | true =>
      obtain ⟨line, h1, h2, h3, h4⟩ := line_ok (heading_short (m := m) names hn)
      refine ⟨line, ?_, h2, h3, by rw [h3]; exact h4⟩
      rw [← h1]
      show lineOf _ = lineOf _
      congr 1
      unfold widths headingWords
      rw [List.zip_append (by rfl), zip_replicate]
      rfl
  · have flat : (samples.flatMap fun e => e.samples.flatMap fun values => row ⟨m.uuid, m.hostName, m.date, b, (infoOf m b r).revision, m.cxx, m.cxxId, m.cxxVer, m.build, m.tbbMalloc⟩ algorithm ('v' :: showInt e.id) e.threads e.file values) =
        (measurements samples).flatMap fun x => row ⟨m.uuid, m.hostName, m.date, b, (infoOf m b r).revision, m.cxx, m.cxxId, m.cxxVer, m.build, m.tbbMalloc⟩ algorithm ('v' :: showInt x.1.id) x.1.threads x.1.file x.2 := by
      unfold measurements
      rw [List.flatMap_assoc]
      congr 1
      funext e
      rw [List.flatMap_map]
    rw [flat]
    generalize measurements samples = xs at hs hk
    induction xs with
    | nil => exact ⟨[], rfl, (fun l hl => by cases hl), .nil⟩
    | cons x xs ih =>
      obtain ⟨lines, e1, e2, e3⟩ := ih (fun y hy => hs y (by simp [hy])) (fun y hy => hk y (by simp [hy]))
      obtain ⟨line, h1, h2, h3, h4⟩ := line_ok (row_short h ha (hs x (by simp)))
      refine ⟨line :: lines, ?_, ?_, .cons ⟨⟨showInt x.1.id, showInt x.1.threads, showInt_numeral _, showInt_numeral _, h3⟩, by rw [h3, ← hk x (by simp)]; exact h4⟩ e3⟩
      · rw [List.flatMap_cons, List.flatMap_cons, ← e1, ← h1]
        congr 1
        show lineOf _ = lineOf _
        congr 1
        unfold widths rowWords
        rw [List.zip_append (by rfl), zip_replicate]
        rfl
      · intro l hl
        rcases List.mem_cons.mp hl with rfl | hl
        · exact h2
        · exact e2 l hl

/-! ## The name of the graph -/

theorem takeWhile_stop {c : Char} {a b : List Char} (h : c ∉ a) : (a ++ c :: b).takeWhile (· ≠ c) = a := by
  induction a with
  | nil => simp
  | cons d a ih =>
    have hd : d ≠ c := fun e => h (by simp [e])
    rw [List.cons_append, List.takeWhile_cons_of_pos (by simpa using hd), ih fun hc => h (by simp [hc])]

theorem takeWhile_all {c : Char} {a : List Char} (h : c ∉ a) : a.takeWhile (· ≠ c) = a := by
  induction a with
  | nil => rfl
  | cons d a ih =>
    have hd : d ≠ c := fun e => h (by simp [e])
    rw [List.takeWhile_cons_of_pos (by simpa using hd), ih fun hc => h (by simp [hc])]

theorem filename_ok {dir f : List Char} (hd : dir = [] ∨ ∃ d, dir = d ++ ['/']) (hf : '/' ∉ f) : filename (dir ++ f) = f := by
  have hr : '/' ∉ f.reverse := by simpa using hf
  unfold filename
  rcases hd with rfl | ⟨d, rfl⟩
  · rw [List.nil_append, takeWhile_all hr, List.reverse_reverse]
  · rw [List.reverse_append, List.reverse_append, List.reverse_singleton, List.singleton_append, takeWhile_stop hr, List.reverse_reverse]

theorem stem_ok {dir name ext : List Char} (hd : dir = [] ∨ ∃ d, dir = d ++ ['/']) (hn : '/' ∉ name) (hne : name ≠ []) (he : '/' ∉ ext) (hdot : '.' ∉ ext) (h2 : ¬ (name = ['.'] ∧ ext = [])) : stem (dir ++ (name ++ '.' :: ext)) = name := by
  have hf : filename (dir ++ (name ++ '.' :: ext)) = name ++ '.' :: ext := by
    apply filename_ok hd
    intro hc
    rcases List.mem_append.mp hc with hc | hc
    · exact hn hc
    · rcases List.mem_cons.mp hc with hc | hc
      · revert hc; decide
      · exact he hc
  have hx : (name ++ '.' :: ext).reverse.takeWhile (· ≠ '.') = ext.reverse := by
    rw [List.reverse_append, List.reverse_cons, List.append_assoc, List.singleton_append]
    exact takeWhile_stop (by simpa using hdot)
  have hlen : 0 < name.length := List.length_pos_iff.mpr hne
  unfold stem
  dsimp only
  rw [hf, hx, if_neg]
  · rw [List.length_reverse, List.length_append, List.length_cons]
    rw [show name.length + (ext.length + 1) - ext.length - 1 = name.length by omega, List.take_left]
  · rintro (hc | hc)
    · have hl := congrArg List.length hc
      simp at hl
      cases name with
      | nil => exact hne rfl
      | cons a name =>
        cases name with
        | cons _ _ => simp at hl; omega
        | nil =>
          have : ext = [] := List.length_eq_zero_iff.mp (by simp at hl; omega)
          subst this
          simp at hc
          exact h2 ⟨by rw [hc], rfl⟩
    · rw [List.length_reverse, List.length_append, List.length_cons] at hc
      omega

/-- **C137.** The column Graph has the name of the file without directory and extension. -/
theorem log_graph_name {dir name ext : List Char} (hd : dir = [] ∨ ∃ d, dir = d ++ ['/']) (hn : '/' ∉ name) (hu : '_' ∉ name) (hne : name ≠ []) (he : '/' ∉ ext) (hdot : '.' ∉ ext) (h2 : ¬ (name = ['.'] ∧ ext = [])) :
    graphName (dir ++ (name ++ '.' :: ext)) = name := by
  unfold graphName
  dsimp only
  rw [stem_ok hd hn hne he hdot h2, takeWhile_all hu, if_neg (Nat.lt_irrefl _)]

/-- **C137, false of the code:** of a name with an underscore only what is before it is written: the lines of two graphs, such as `web_1.mtx` and `web_2.mtx`, cannot be told apart. -/
theorem log_graph_wrong {dir name more ext : List Char} (hd : dir = [] ∨ ∃ d, dir = d ++ ['/']) (hn : '/' ∉ name) (hu : '_' ∉ name) (hm : '/' ∉ more) (he : '/' ∉ ext) (hdot : '.' ∉ ext) :
    graphName (dir ++ ((name ++ '_' :: more) ++ '.' :: ext)) = name := by
  unfold graphName
  dsimp only
  rw [stem_ok hd ?_ (by simp) he hdot ?_, takeWhile_stop hu, if_pos (by simp), List.take_left]
  · intro hc
    rcases List.mem_append.mp hc with hc | hc
    · exact hn hc
    · rcases List.mem_cons.mp hc with hc | hc
      · revert hc; decide
      · exact hm hc
  · rintro ⟨hc, -⟩
    have : '_' ∈ name ++ '_' :: more := by simp
    rw [hc] at this
    revert this; decide

/-- **C137, false of the code:** the name of the branch and the revision run into one word if the branch has ten characters or more; then the columns behind them are shifted. -/
theorem log_branch_wrong {m : Machine} {b r : List Char} (hb : IsWord b) (hb10 : 10 ≤ b.length) (hbr : ∃ t ts, m.gitBranch = some t ∧ words t = b :: ts) (hr : IsWord r) (hr10 : r.length < 10) (hrev : ∃ t ts, m.gitLog = some t ∧ words t = r :: ts)
    (hdirty : m.gitDirty = false) (hu : IsWord m.uuid ∧ m.uuid.length = 24) {l : Log} (hl : Log.make m = .ok l) (algorithm version : List Char) (threads : Int) (graph : List Char) (times : List (List Char)) :
    ∃ rest, words (row l algorithm version threads graph times) = m.uuid :: "NWGRAPH".toList :: (b ++ r) :: rest := by
  obtain ⟨t, ts, h1, h2⟩ := hbr
  obtain ⟨t', ts', h3, h4⟩ := hrev
  have e1 : BenchLog.branch m = b := by unfold BenchLog.branch; rw [h1]; exact Bench.firstWord_words h2
  have e2 : BenchLog.revision m = r := by
    unfold BenchLog.revision; rw [h3]; dsimp only; rw [Bench.firstWord_words h4, hdirty]; simp
  unfold Log.make at hl
  cases hh : hostText m.hostName with
  | error f => rw [hh] at hl; cases hl
  | ok hst =>
    rw [hh] at hl
    cases hl
    unfold row lineOf
    dsimp only
    rw [e1, e2]
    simp only [List.cons_append, List.flatMap_cons, List.append_assoc]
    rw [words_padded ⟨hu.1, by rw [hu.2]; decide⟩, words_padded ⟨⟨by decide, by decide⟩, by decide⟩]
    have hp : padded 10 b = b := by
      unfold padded
      rw [show 10 - b.length = 0 by omega]; simp
    rw [hp, padded_short hr10]
    generalize hrest : (padded (columnSize m.cxx _) m.cxx ++ _ : List Char) = rest
    refine ⟨words (' ' :: List.replicate (10 - r.length - 1) ' ' ++ rest), ?_⟩
    have hw := words_word (t := b ++ r) (rest := ' ' :: List.replicate (10 - r.length - 1) ' ' ++ rest) (by
      intro hc; exact hb.1 (List.append_eq_nil_iff.mp hc).1) (fun c hc => by
      rcases List.mem_append.mp hc with hc | hc
      · exact hb.2 c hc
      · exact hr.2 c hc) (.inr ⟨' ', _, rfl, rfl⟩)
    rw [← hw]
    simp only [List.append_assoc, List.cons_append]

/-- **C137, false of the code:** without git there are two words less in each line. -/
theorem log_git_wrong {m : Machine} (hb : m.gitBranch = none) (hr : m.gitLog = none) (hu : IsWord m.uuid ∧ m.uuid.length = 24) (hc : IsWord m.cxx) {l : Log} (hl : Log.make m = .ok l) (algorithm version : List Char) (threads : Int) (graph : List Char) (times : List (List Char)) :
    ∃ rest, words (row l algorithm version threads graph times) = m.uuid :: "NWGRAPH".toList :: m.cxx :: rest := by
  have e1 : BenchLog.branch m = [] := by unfold BenchLog.branch; rw [hb]
  have e2 : BenchLog.revision m = [] := by unfold BenchLog.revision; rw [hr]
  unfold Log.make at hl
  cases hh : hostText m.hostName with
  | error f => rw [hh] at hl; cases hl
  | ok hst =>
    rw [hh] at hl
    cases hl
    unfold row lineOf
    dsimp only
    rw [e1, e2]
    simp only [List.cons_append, List.flatMap_cons, List.append_assoc]
    rw [words_padded ⟨hu.1, by rw [hu.2]; decide⟩, words_padded ⟨⟨by decide, by decide⟩, by decide⟩]
    have hp : ∀ rest, words (padded 10 [] ++ rest) = words rest := fun rest => words_blank_append (by decide) rest
    rw [hp, hp, words_padded ⟨hc, columnSize_value _ _⟩]
    exact ⟨_, rfl⟩

/-- **C137, false of the code:** on a machine whose name has twenty characters or more, the name is read past its array. -/
theorem log_host_wrong {m : Machine} (h : 20 ≤ m.hostName.length) : Log.make m = .error .outOfBounds := by
  unfold Log.make hostText
  rw [if_neg (by omega)]
  rfl

/-! ## The file -/

/-- **C137.** The log is appended to the file, and no other file is changed. -/
theorem log_appends {m : Machine} {d : Disk} {path : List (List Char)} {l : Log} (hl : Log.make m = .ok l) (hp : path.dropLast = [] ∨ path.dropLast ∈ d.dirs ∨ path.dropLast.dropLast = [] ∨ path.dropLast.dropLast ∈ d.dirs)
    (algorithm : List Char) (samples : List Entry) (withHeader : Bool) (headers : List (List Char)) :
    ∃ d', logFile m d path algorithm samples withHeader headers = .ok d' ∧ d'.file path = some ((d.file path).getD [] ++ print l algorithm samples withHeader headers) ∧ ∀ q, q ≠ path → d'.file q = d.file q := by
  have key : ∃ d1, openFile d path = .ok d1 ∧ d1.file = d.file := by
    unfold openFile
    dsimp only
    by_cases h1 : path.dropLast = [] ∨ path.dropLast ∈ d.dirs
    · rw [if_pos h1]; exact ⟨d, rfl, rfl⟩
    · rw [if_neg h1]
      have h2 : path.dropLast.dropLast = [] ∨ path.dropLast.dropLast ∈ d.dirs := by tauto
      rw [if_pos h2]; exact ⟨_, rfl, rfl⟩
  obtain ⟨d1, h1, h2⟩ := key
  unfold logFile
  rw [h1, res_bind_ok, hl, res_bind_ok]
  refine ⟨_, rfl, ?_, ?_⟩
  · show (if path = path then _ else _) = _
    rw [if_pos rfl, h2]
  · intro q hq
    show (if q = path then _ else _) = _
    rw [if_neg hq, h2]

/-- **C137, false of the code:** if two directories have to be made, the program ends without a log, after all measurements have been made. -/
theorem log_directory_wrong {m : Machine} {d : Disk} {path : List (List Char)} (h1 : path.dropLast.dropLast ≠ []) (h2 : path.dropLast ∉ d.dirs) (h3 : path.dropLast.dropLast ∉ d.dirs)
    (algorithm : List Char) (samples : List Entry) (withHeader : Bool) (headers : List (List Char)) : logFile m d path algorithm samples withHeader headers = .error .terminated := by
  have h0 : path.dropLast ≠ [] := fun h => h1 (by rw [h]; rfl)
  unfold logFile openFile
  dsimp only
  rw [if_neg (by tauto), if_neg (by tauto)]
  rfl

/-! ## A concrete case -/

def exMachine : Machine := ⟨"abcdefghijklmnopqrstuvwx".toList, "node17".toList, "2022-03-01".toList, some "master\n".toList, some "1a2b3c4".toList, true, "/usr/bin/g++".toList, "GNU".toList, "11.2.0".toList, "Release".toList, "ON".toList⟩

example : FitsRun exMachine "master".toList "1a2b3c4".toList :=
  ⟨⟨⟨by decide, by decide⟩, by decide⟩, ⟨⟨by decide, by decide⟩, by decide⟩, ⟨⟨by decide, by decide⟩, by decide⟩, ⟨⟨⟨by decide, by decide⟩, by decide⟩, _, [], rfl, by decide⟩, ⟨⟨by decide, by decide⟩, by decide, _, [], rfl, by decide⟩,
    ⟨by decide, by decide⟩, ⟨by decide, by decide⟩, ⟨by decide, by decide⟩, ⟨by decide, by decide⟩, ⟨by decide, by decide⟩⟩

example : graphName "/data/graphs/soc-Live.v1_sym.mtx".toList = "soc-Live.v1".toList := by decide +kernel

example : FitsEntry ⟨"/data/kron.mtx".toList, 11, 64, []⟩ ["1.25000000e+00".toList, "17".toList] := by
  have h1 : showInt 11 = "11".toList := by simp [showInt, showNat]
  have h2 : showInt 64 = "64".toList := by simp [showInt, showNat]
  have h3 : graphName "/data/kron.mtx".toList = "kron".toList := by decide +kernel
  refine ⟨by rw [h1]; decide, by rw [h2]; decide, by rw [h3]; exact ⟨⟨by decide, by decide⟩, by decide⟩, ?_⟩
  intro t ht
  rcases List.mem_cons.mp ht with rfl | ht
  · exact ⟨⟨by decide, by decide⟩, by decide⟩
  · rw [List.mem_singleton.mp ht]
    exact ⟨⟨by decide, by decide⟩, by decide⟩

end NW.BenchLog
