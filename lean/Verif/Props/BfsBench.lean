import Verif.Model.BfsBench
import Verif.Lemmas.CcBench
import Verif.Props.CcBench
import Verif.Props.Bfs
import Verif.Props.BfsExp
import Verif.Props.BfsDirExp
import Verif.Props.Dobfs
import Verif.Props.Util
import Mathlib.Data.List.ProdSigma

/-!
# C114: the breadth-first search benchmark

`bfs` searches the graph of the edge list that was read, with all its edges reversed: stated for every version, source and number of threads.
-/

namespace NW.BfsBench
open Spec Bfs
open CcBench (Lib Loaded)

variable {L : Lib} {el : EdgeList Unit}

/-- Searching against the edges: `par` is a breadth-first search tree from `source` of the graph that has an edge from `u` to `v` exactly if the list has one from `v` to `u`. -/
def BackwardTree (es : List (Nat × Nat × Unit)) (source : Nat) (par : Nat → Option Nat) : Prop :=
  ∃ G : Rows Unit, (∀ u v, Edge G u v ↔ Listed es v u) ∧ BfsTree G source par

/-- Searching along the edges, which is what a user expects. -/
def ForwardTree (es : List (Nat × Nat × Unit)) (source : Nat) (par : Nat → Option Nat) : Prop :=
  ∃ G : Rows Unit, (∀ u v, Edge G u v ↔ Listed es u v) ∧ BfsTree G source par

/-- The versions that find trees: all but 2 (C84, it reads memory that was not initialised) and, with more threads than bins, 1. -/
def Sound (o : Opts) (threads id : Nat) : Prop :=
  id ∈ [0, 6, 7, 8, 9, 10, 11, 12, 13] ∨ id = 1 ∧ 0 < threads ∧ threads ≤ orElse o.bins 32

theorem orElse_pos {x d : Nat} (h : 0 < d) : 0 < orElse x d := by
  unfold orElse; split <;> omega

theorem gives_det {ρ : Type} {m : Run ρ} {Q : ρ → Prop} {r : ρ} (h : m (.ok r)) (hq : Q r) (hd : ∀ o o', m o → m o' → o = o') : Run.Gives m Q :=
  ⟨⟨_, h⟩, fun _ ho => ⟨r, hd _ _ ho h, hq⟩⟩

theorem run_det {inf : Nat} {g : Rows Unit} {root : Nat} {o₁ o₂ : Res (List Nat)} (h₁ : Bfs.Run inf g root o₁) (h₂ : Bfs.Run inf g root o₂) : o₁ = o₂ := by
  unfold Bfs.Run at h₁ h₂
  split at h₁
  · rename_i s hs
    rw [hs] at h₂
    exact Loop.det h₁ h₂
  · rename_i f hf
    rw [hf] at h₂
    rw [h₁, h₂]

theorem gives_fromStart {σ ρ : Type} {start : Res σ} {step : σ → Res (σ ⊕ ρ) → Prop} {Q : ρ → Prop} (h : ∃ s, start = .ok s ∧ Sure step Q s) :
    Run.Gives (fromStart start step) Q := by
  obtain ⟨s, h1, h2⟩ := h
  unfold fromStart
  refine (Run.gives_lift (Q := (· = s)) h1 rfl).bind ?_
  rintro _ rfl
  exact CcBench.gives_runs h2

theorem reader_ok (hL : L.build.Ok) (he : Loaded el) : ∃ g gx, reader L el = .ok (g, gx) ∧ g.length = el.numVertices ∧ InRange g ∧ IsTranspose g gx ∧
    ∀ u v, Edge g u v ↔ Listed el.contents v u := by
  obtain ⟨g, h1, h2, h3⟩ := CcBench.adjacency_ok L hL true 1 (by omega) el he.wf he.below
  obtain ⟨gx, h4, h5, h6⟩ := CcBench.adjacency_ok L hL true 0 (by omega) el he.wf he.below
  simp only [if_true, Nat.one_ne_zero, if_false] at h3 h6
  refine ⟨g, gx, ?_, h2, ?_, ⟨by omega, fun u v => by rw [h6, h3]⟩, h3⟩
  · unfold reader
    rw [h1, res_bind_ok, h4, res_bind_ok]; rfl
  · intro u v h
    obtain ⟨a, ha⟩ := (h3 u v).1 h
    rw [h2]
    exact (he.below _ ha).1

theorem roundedBins_ok {b : Nat} (h0 : 0 < b) (h : b < 2 ^ 31) : ∃ n, roundedBins b = .ok n ∧ 0 < n := by
  obtain ⟨k, h1, h2, h3⟩ := Util.ceilLog2_ok (w := 32) (v := b) (by omega) (by omega)
  have hk : k ≤ 31 := h3 31 (by omega)
  have hp : 2 ^ k < 2 ^ 64 := Nat.pow_lt_pow_right (by omega) (by omega)
  refine ⟨2 ^ k, ?_, Nat.two_pow_pos k⟩
  unfold roundedBins Util.pow2
  rw [h1, res_bind_ok]
  have : (0 ≤ (k : Int) ∧ (k : Int) < ((64 : Nat) : Int) - 1) := by omega
  simp only [check, this, and_self, if_true, res_bind_ok, Int.toNat_natCast, Nat.shiftLeft_eq, one_mul, Nat.mod_eq_of_lt hp]
  rfl

theorem parents_ok {o : Opts} (ho : o.bins < 2 ^ 31) {threads id : Nat} (hid : Sound o threads id) {g gx : Rows Unit} (hg : InRange g) (ht : IsTranspose g gx)
    {source : Nat} (hs : source < g.length) (hn : g.length ≤ null) :
    Run.Gives (parents o threads id (g, gx) source) fun par => par.length = g.length ∧ BfsTree g source (parentOf null par) := by
  have hbins : 0 < orElse o.bins 32 := orElse_pos (by omega)
  have hlt : orElse o.bins 32 < 2 ^ 31 := by unfold orElse; split <;> omega
  have husable : ∀ n, 0 < n → Dobfs.Usable (args o n (g, gx)) source := fun n h0 =>
    ⟨hg, ht, hs, hn, h0, orElse_pos (by omega), orElse_pos (by omega)⟩
  have hgarb : ∃ l : List Bool, l.length = g.length := ⟨List.replicate g.length false, by simp⟩
  rcases hid with hid | ⟨rfl, h1, h2⟩
  · simp only [List.mem_cons, List.not_mem_nil, or_false] at hid
    rcases hid with rfl | rfl | rfl | rfl | rfl | rfl | rfl | rfl | rfl
    · obtain ⟨p, h1, h2⟩ := Bfs.bfs_correct null g hg source hs hn
      exact gives_det (m := fun r => Bfs.Run null g source r) h1 h2 fun _ _ h h' => run_det h h'
    · obtain ⟨p, h1, h2⟩ := BfsExp.bfs_v6_correct null g hg source hs hn
      exact gives_det (m := fun r => BfsExp.RunV6 null g source r) h1 h2 fun _ _ h h' => run_det h h'
    · exact gives_fromStart (BfsExp.bfs_levels_correct .v7 null g hg source hs hn)
    · exact gives_fromStart (BfsExp.bfs_levels_correct .v8 null g hg source hs hn)
    · exact gives_fromStart (BfsExp.bfs_levels_correct .v9 null g hg source hs hn)
    · exact gives_fromStart (BfsExp.bfs_levels_correct .topDown null g hg source hs hn)
    · show Run.Gives (dobfs o (g, gx) source) _
      unfold dobfs
      obtain ⟨n, e1, e2⟩ := roundedBins_ok hbins hlt
      refine (Run.gives_lift (Q := (· = n)) e1 rfl).bind ?_
      rintro _ rfl
      refine (Run.gives_choose (Q := fun _ => True) hgarb fun _ _ => trivial).bind fun garbage _ => ?_
      exact gives_fromStart (Dobfs.dobfs_correct _ source (husable _ e2) garbage)
    · exact gives_fromStart (BfsExp.bfs_levels_correct .bitmap null g hg source hs hn)
    · exact gives_fromStart (BfsExp.bfs_bottom_up_correct null g gx hg ht source hs hn)
  · show Run.Gives (dirExp .v1 o threads (g, gx) source) _
    unfold dirExp
    refine (Run.gives_choose (Q := fun _ => True) hgarb fun _ _ => trivial).bind fun garbage _ => ?_
    exact gives_fromStart (BfsDirExp.bfs_v1_partial _ source threads (husable _ hbins) ⟨h1, h2⟩ garbage)

theorem trial_ok {o : Opts} (ho : o.bins < 2 ^ 31) {threads id : Nat} (hid : Sound o threads id) {g gx : Rows Unit} (hg : InRange g) (ht : IsTranspose g gx)
    {source : Nat} (hs : source < g.length) (hn : g.length ≤ null) :
    Run.Gives (trial o (g, gx) threads id source) fun t => (t.threads, t.id, t.source) = (threads, id, source) ∧ t.accepted = true ∧ t.parents.length = g.length ∧
      BfsTree g source (parentOf null t.parents) := by
  unfold trial
  refine (parents_ok ho hid hg ht hs hn).bind fun par ⟨h1, h2⟩ => ?_
  have h3 := (Bfs.verifier_correct null g gx hg source hs hn ht.1 ht.2 par h1).2.2 h2
  refine (gives_det (m := fun r => Bfs.Verifier null g gx source par r) (Q := (· = true)) h3 rfl fun _ _ h h' => Bfs.Verifier.det h h').bind ?_
  rintro _ rfl
  exact Run.gives_pure ⟨rfl, rfl, h1, h2⟩

theorem plan_eq (threads ids sources : List Nat) : plan threads ids sources = threads ×ˢ ids ×ˢ sources := by
  show (threads.flatMap fun t => ids.flatMap fun i => sources.map fun s => (t, i, s)) = threads.flatMap fun t => (ids.flatMap fun i => sources.map fun s => (i, s)).map fun x => (t, x)
  simp [List.map_flatMap, Function.comp_def]

/-- C114. For every file, every list of versions among those that work, every list of numbers of threads and every list of sources, the benchmark makes all the trials, the verifier accepts each result,
and each result is a breadth-first search tree: of the graph of the file with its edges reversed.  Missing for the full C114: versions 1 (with more threads than bins) and 2, and that the edges are used as the file
lists them (`bench_searches_backwards`). -/
theorem bench_correct_partial (hL : L.build.Ok) (he : Loaded el) (hn : el.numVertices < 2 ^ 32) (o : Opts) (ho : o.bins < 2 ^ 31) (threads ids sources : List Nat)
    (hid : ∀ t ∈ threads, ∀ i ∈ ids, Sound o t i) (hs : ∀ s ∈ sources, s < el.numVertices) :
    Run.Gives (main L o threads ids sources el) fun ts => ts.map (fun t => (t.threads, t.id, t.source)) = threads ×ˢ ids ×ˢ sources ∧
      ∀ t ∈ ts, t.accepted = true ∧ t.parents.length = el.numVertices ∧ BackwardTree el.contents t.source (parentOf null t.parents) := by
  obtain ⟨g, gx, h1, h2, h3, h4, h5⟩ := reader_ok hL he
  rw [← plan_eq]
  unfold main
  refine (Run.gives_lift (Q := (· = (g, gx))) h1 rfl).bind ?_
  rintro _ rfl
  refine Run.gives_foldlM (I := fun (pre : List (Nat × Nat × Nat)) (ts : List Trial) => ts.map (fun t => (t.threads, t.id, t.source)) = pre ∧
      ∀ t ∈ ts, t.accepted = true ∧ t.parents.length = el.numVertices ∧ BackwardTree el.contents t.source (parentOf null t.parents)) ⟨rfl, by simp⟩ ?_
  rintro pre ⟨t, i, s⟩ post hl ts ⟨i1, i2⟩
  have hmem : (t, i, s) ∈ plan threads ids sources := by rw [hl]; simp
  unfold plan at hmem
  simp only [List.mem_flatMap, List.mem_map, Prod.mk.injEq] at hmem
  obtain ⟨t', m1, i', m2, s', m3, rfl, rfl, rfl⟩ := hmem
  refine (trial_ok ho (hid _ m1 _ m2) h3 h4 (by rw [h2]; exact hs _ m3) (by unfold null; omega)).bind fun r ⟨r1, r2, r3, r4⟩ => Run.gives_pure ⟨?_, ?_⟩
  · rw [List.map_append, i1, List.map_singleton, r1]
  · intro t ht
    rcases List.mem_append.1 ht with ht | ht
    · exact i2 t ht
    · rw [List.mem_singleton.1 ht]
      simp only [Prod.mk.injEq] at r1
      exact ⟨r2, by rw [r3, h2], g, h5, by rw [r1.2.2]; exact r4⟩

/-- C114, for a file in which every edge is listed in both directions: the trees are those of the file's graph. -/
theorem bench_correct_symmetric (hL : L.build.Ok) (he : Loaded el) (hn : el.numVertices < 2 ^ 32) (hsym : ∀ u v, Listed el.contents u v → Listed el.contents v u)
    (o : Opts) (ho : o.bins < 2 ^ 31) (threads ids sources : List Nat) (hid : ∀ t ∈ threads, ∀ i ∈ ids, Sound o t i) (hs : ∀ s ∈ sources, s < el.numVertices) :
    Run.Gives (main L o threads ids sources el) fun ts => ts.map (fun t => (t.threads, t.id, t.source)) = threads ×ˢ ids ×ˢ sources ∧
      ∀ t ∈ ts, t.accepted = true ∧ t.parents.length = el.numVertices ∧ ForwardTree el.contents t.source (parentOf null t.parents) := by
  refine (bench_correct_partial hL he hn o ho threads ids sources hid hs).mono fun ts ⟨h1, h2⟩ => ⟨h1, fun t ht => ?_⟩
  obtain ⟨h3, h4, G, h5, h6⟩ := h2 t ht
  exact ⟨h3, h4, G, fun u v => (h5 u v).trans ⟨hsym _ _, hsym _ _⟩, h6⟩

/-- The file with the one edge 0→1. -/
def exEdge : EdgeList Unit := ⟨2, false, [0], [1], [()]⟩

/-- C114, against the property: in the file with the edge 0→1, vertex 1 is next to vertex 0, but every version reports from the source 0 that vertex 1 has no parent, and the verifier accepts this;
from the source 1 every version reports 1 as the parent of 0, though the file has no edge from 1 to 0. -/
theorem bench_searches_backwards (hL : L.build.Ok) (o : Opts) (ho : o.bins < 2 ^ 31) (threads id : Nat) (hid : Sound o threads id) :
    Run.Gives (main L o [threads] [id] [0, 1] exEdge) fun ts => ts.map (fun t => (t.source, t.parents, t.accepted)) = [(0, [0, null], true), (1, [1, 1], true)] := by
  have he : Loaded exEdge := ⟨⟨rfl, rfl⟩, by simp [EndpointsBelow, exEdge, EdgeList.contents, EdgeList.numVertices], by decide⟩
  refine (bench_correct_partial hL he (by decide) o ho [threads] [id] [0, 1] (by simpa using hid) (by decide)).mono fun ts ⟨h1, h2⟩ => ?_
  have hlist : ∀ u v, Listed exEdge.contents u v ↔ u = 0 ∧ v = 1 := by
    intro u v
    simp [Listed, exEdge, EdgeList.contents]
  have value : ∀ {par : List Nat} {i u : Nat} {h : i < par.length}, parentOf null par i = some u → par[i] = u := by
    intro par i u h hp
    unfold parentOf at hp
    rw [List.getElem?_eq_getElem h] at hp
    simp only at hp
    split at hp
    · cases hp
    · exact Option.some.inj hp
  have key0 : ∀ par : List Nat, par.length = 2 → BackwardTree exEdge.contents 0 (parentOf null par) → par = [0, null] := by
    rintro par hl ⟨G, hG, ht⟩
    match par, hl with
    | [a, b], _ =>
      have ha : a = 0 := value (h := by simp) ht.rootPar
      have hb : b = null := by
        by_contra hb
        obtain ⟨k, hw⟩ := (ht.reach 1).1 ⟨b, by simp [parentOf, hb]⟩
        have : ∀ v k, Walk G 0 v k → v = 0 := by
          intro v k h
          induction h with
          | nil => rfl
          | snoc _ e ih => rw [ih, hG, hlist] at e; omega
        exact absurd (this _ _ hw) (by decide)
      rw [ha, hb]
  have key1 : ∀ par : List Nat, par.length = 2 → BackwardTree exEdge.contents 1 (parentOf null par) → par = [1, 1] := by
    rintro par hl ⟨G, hG, ht⟩
    match par, hl with
    | [a, b], _ =>
      have hb : b = 1 := value (h := by simp) ht.rootPar
      obtain ⟨u, hu⟩ := (ht.reach 0).2 ⟨1, .snoc .nil ((hG 1 0).2 ((hlist 0 1).2 ⟨rfl, rfl⟩))⟩
      have h1 := (hlist _ _).1 ((hG _ _).1 (ht.edge 0 u (by decide) hu).1)
      have ha : a = u := value (h := by simp) hu
      rw [ha, hb, h1.2]
  rw [← plan_eq] at h1
  simp only [plan, List.flatMap_cons, List.flatMap_nil, List.append_nil, List.map_cons, List.map_nil] at h1
  have hlen := congrArg List.length h1
  simp only [List.length_map, List.length_cons, List.length_nil] at hlen
  match ts, hlen, h1, h2 with
  | [t, t'], _, h1, h2 =>
    simp only [List.map_cons, List.map_nil, List.cons.injEq, Prod.mk.injEq, and_true] at h1
    obtain ⟨⟨-, -, s0⟩, -, -, s1⟩ := h1
    obtain ⟨a1, a2, a3⟩ := h2 t (by simp)
    obtain ⟨b1, b2, b3⟩ := h2 t' (by simp)
    rw [s0] at a3
    rw [s1] at b3
    simp [s0, s1, a1, b1, key0 _ a2 a3, key1 _ b2 b3]

/-- C114, an unknown version: the verifier reads the empty result out of bounds. -/
theorem bench_unknown_version (hL : L.build.Ok) (he : Loaded el) (hn : el.numVertices < 2 ^ 32) (o : Opts) (threads id source : Nat)
    (hid : id ∉ [0, 1, 2, 6, 7, 8, 9, 10, 11, 12, 13]) (hs : source < el.numVertices) : Run.Faults (main L o [threads] [id] [source] el) .outOfBounds := by
  obtain ⟨g, gx, h1, h2, h3, h4, h5⟩ := reader_ok hL he
  have hs' : source < g.length := by omega
  unfold main
  refine (Run.gives_lift (Q := (· = (g, gx))) h1 rfl).bind_faults ?_
  rintro _ rfl
  simp only [plan, List.flatMap_cons, List.flatMap_nil, List.append_nil, List.map_cons, List.map_nil, List.foldlM_cons]
  refine Run.Faults.bind (Run.Faults.bind ?_)
  unfold trial
  have hp : parents o threads id (g, gx) source = pure [] := by
    simp only [List.mem_cons, List.not_mem_nil, or_false, not_or] at hid
    have : id = 3 ∨ id = 4 ∨ id = 5 ∨ ∃ n, id = n + 14 := by
      by_cases h : id < 14
      · omega
      · exact Or.inr (Or.inr (Or.inr ⟨id - 14, by omega⟩))
    rcases this with rfl | rfl | rfl | ⟨n, rfl⟩ <;> rfl
  rw [hp]
  refine (Run.gives_pure (Q := (· = [])) rfl).bind_faults ?_
  rintro _ rfl
  refine Run.Faults.bind ?_
  obtain ⟨depth, hd, done, D, par, -, hA, -⟩ := Bfs.verifier_explores null g h3 source hs' (by unfold null; omega)
  have hv : Bfs.Verifier null g gx source [] (.error .outOfBounds) := by
    unfold Bfs.Verifier
    rw [vset_of_lt (by simpa using hs')]
    refine ⟨_, hd, ?_⟩
    rw [res_bind_ok]
    obtain ⟨n, hn⟩ : ∃ n, g.length = n + 1 := ⟨g.length - 1, by omega⟩
    rw [hn, List.range_succ_eq_map]
    unfold Bfs.verAll Bfs.verVertex
    rw [vget_of_lt (by rw [hA.1]; omega), res_bind_ok, vget_of_ge (by simp)]
    rfl
  exact ⟨⟨_, hv⟩, fun o ho => Bfs.Verifier.det ho hv⟩

theorem faults_fromStart {σ ρ : Type} {start : Res σ} {step : σ → Res (σ ⊕ ρ) → Prop} {f : Fault} (h : start = .error f) : Run.Faults (fromStart start step) f := by
  unfold fromStart
  exact Run.Faults.bind (Run.faults_lift h)

/-- C114, `-r` with a number that is not a vertex: no version checks the source; all write out of bounds. -/
theorem bench_source_not_a_vertex (hL : L.build.Ok) (he : Loaded el) (o : Opts) (ho : o.bins < 2 ^ 31) (threads id source : Nat)
    (hid : id ∈ [0, 1, 2, 6, 7, 8, 9, 10, 11, 12, 13]) (hs : el.numVertices ≤ source) : Run.Faults (main L o [threads] [id] [source] el) .outOfBounds := by
  obtain ⟨g, gx, h1, h2, h3, h4, h5⟩ := reader_ok hL he
  have hs' : g.length ≤ source := by omega
  have hsx : gx.length ≤ source := by rw [h4.1]; omega
  unfold main
  refine (Run.gives_lift (Q := (· = (g, gx))) h1 rfl).bind_faults ?_
  rintro _ rfl
  simp only [plan, List.flatMap_cons, List.flatMap_nil, List.append_nil, List.map_cons, List.map_nil, List.foldlM_cons]
  refine Run.Faults.bind (Run.Faults.bind ?_)
  unfold trial
  refine Run.Faults.bind ?_
  have hgarb : ∃ l : List Bool, l.length = g.length := ⟨List.replicate g.length false, by simp⟩
  have hb : Bfs.bfsInit null g source = .error .outOfBounds := by
    unfold Bfs.bfsInit
    rw [vset_of_ge (by simpa using hs'), res_bind_error]
  have hrun : ∀ m : Run (List Nat), (∀ r, m r ↔ Bfs.Run null g source r) → Run.Faults m .outOfBounds := by
    intro m hm
    have : ∀ r, Bfs.Run null g source r ↔ r = .error .outOfBounds := by
      intro r
      unfold Bfs.Run
      rw [hb]
    exact ⟨⟨_, (hm _).2 ((this _).2 rfl)⟩, fun r hr => (this r).1 ((hm r).1 hr)⟩
  have hlev : ∀ ver, BfsExp.init ver null g source = .error .outOfBounds := by
    intro ver
    unfold BfsExp.init BfsExp.initMark
    have e1 : ∀ x y : Nat, vset (List.replicate g.length x) source y = .error .outOfBounds := fun x y => vset_of_ge (by simpa using hs')
    cases ver <;> simp only [e1, res_bind_error] <;> rfl
  simp only [List.mem_cons, List.not_mem_nil, or_false] at hid
  rcases hid with rfl | rfl | rfl | rfl | rfl | rfl | rfl | rfl | rfl | rfl | rfl
  · exact hrun _ fun _ => Iff.rfl
  iterate 2
    refine (Run.gives_choose (Q := fun _ => True) hgarb fun _ _ => trivial).bind_faults fun garbage _ => faults_fromStart ?_
    unfold BfsDirExp.init
    rw [vget_of_ge (by exact hs'), res_bind_error]
  · exact hrun _ fun _ => Iff.rfl
  · exact faults_fromStart (hlev _)
  · exact faults_fromStart (hlev _)
  · exact faults_fromStart (hlev _)
  · exact faults_fromStart (hlev _)
  · show Run.Faults (dobfs o (g, gx) source) _
    unfold dobfs
    obtain ⟨n, e1, -⟩ := roundedBins_ok (b := orElse o.bins 32) (orElse_pos (by omega)) (by unfold orElse; split <;> omega)
    refine (Run.gives_lift (Q := (· = n)) e1 rfl).bind_faults ?_
    rintro _ rfl
    refine (Run.gives_choose (Q := fun _ => True) hgarb fun _ _ => trivial).bind_faults fun garbage _ => faults_fromStart ?_
    unfold Dobfs.init
    rw [vget_of_ge (by exact hs'), res_bind_error]
  · exact faults_fromStart (hlev _)
  · refine faults_fromStart ?_
    unfold BfsExp.buInit
    rw [vset_of_ge (by simpa using hsx), res_bind_error]

/-- Six edges on seven vertices, of which one is not reached; the benchmark tries all versions on one and on eight threads. -/
example : ∃ ts, main CcBench.exLib ⟨0, 0, 0⟩ [1, 8] [0, 1, 6, 7, 8, 9, 10, 11, 12, 13] [3, 0] CcBench.exEl (.ok ts) ∧ ts.length = 40 := by
  obtain ⟨ts, h1, h2, -⟩ := (bench_correct_partial CcBench.exLib_conforms.build CcBench.exEl_loaded (by decide) ⟨0, 0, 0⟩ (by decide) [1, 8] [0, 1, 6, 7, 8, 9, 10, 11, 12, 13] [3, 0]
    (by simp [Sound, orElse]) (by decide)).exists
  exact ⟨ts, h1, by rw [← List.length_map (as := ts), h2]; rfl⟩

/-- A symmetric file. -/
example : Loaded ⟨3, false, [0, 1, 1, 2], [1, 0, 2, 1], [(), (), (), ()]⟩ ∧
    ∀ u v, Listed (EdgeList.contents (⟨3, false, [0, 1, 1, 2], [1, 0, 2, 1], [(), (), (), ()]⟩ : EdgeList Unit)) u v →
      Listed (EdgeList.contents (⟨3, false, [0, 1, 1, 2], [1, 0, 2, 1], [(), (), (), ()]⟩ : EdgeList Unit)) v u := by
  refine ⟨⟨⟨rfl, rfl⟩, by simp [EndpointsBelow, EdgeList.contents, EdgeList.numVertices], by decide⟩, ?_⟩
  intro u v
  simp [Listed, EdgeList.contents]
  omega

end NW.BfsBench
