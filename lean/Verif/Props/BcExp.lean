import Verif.Lemmas.BcExp
import Verif.Props.BrandesPar

/-!
# C94, C95: the sequential experimental betweenness versions

`approx_betweenness_brandes` and `bc2_v1` compute the betweenness with respect to the given sources.  `bc2_v0` also adds the dependency of a source on itself.
-/

namespace NW.BcExp
open Spec
open NW.Brandes (Vec)
open NW.BrandesPar (reached parScore sum_dependency dependency_self)

variable {α : Type}

/-- The numbers of shortest paths from the sources fit the counting type. -/
def Fits (M : Nat) (g : Rows α) (sources : List Nat) : Prop := ∀ s ∈ sources, ∀ t < g.length, (shortestPaths g s t).length < M

theorem init_ok (M inf : Nat) {n s : Nat} (hs : s < n) : ∃ st, init M inf n s = .ok st := by
  unfold init
  rw [vset_of_lt (by simpa using hs), res_bind_ok, vset_of_lt (by simpa using hs), res_bind_ok]
  exact ⟨_, rfl⟩

/-- The vertices in the order of the way back. -/
theorem doneOf_reverse (S0 : List (List Nat)) : (doneOf S0 S0.length).reverse = S0.reverse.flatten := by
  unfold doneOf
  rw [List.take_of_length_le (Nat.le_refl _), List.reverse_flatten, List.map_map]
  congr 1
  have : List.reverse ∘ (List.reverse : List Nat → List Nat) = id := by funext l; simp
  rw [this, List.map_id]

theorem range_map_get (S0 R : List (List Nat)) : (List.range S0.length).map (fun i => (S0 ++ R)[i]?) = S0.map some := by
  apply List.ext_getElem?
  intro i
  rw [List.getElem?_map, List.getElem?_map]
  rcases Nat.lt_or_ge i S0.length with hi | hi
  · rw [List.getElem?_range hi, Option.map_some, List.getElem?_append_left hi, List.getElem?_eq_getElem hi]; rfl
  · rw [List.getElem?_eq_none (by simpa using hi), List.getElem?_eq_none hi]; rfl

/-- What a source adds. -/
def adds (ver : Version) (g : Rows α) (s v : Nat) : ℚ := if ver.root ∨ v ≠ s then dependency g s v else 0

theorem back_gives (ver : Version) {M inf : Nat} {g : Rows α} (hg : InRange g) {s : Nat} (hs : s < g.length) (hfit : ∀ t < g.length, (shortestPaths g s t).length < M) {st : St}
    {S0 : List (List Nat)} {D par : Nat → Option Nat} {G : Nat → Nat} {Pf : Nat → List Nat} (hpos : 0 < st.phase) (h : FI M inf g s st S0 [] D par G Pf) {bc : List ℚ}
    {c0 : Nat → ℚ} (hc : Vec g.length c0 bc) : ∃ r, back ver g.length st bc = .ok r ∧ Vec g.length (fun v => c0 v + adds ver g s v) r := by
  have hfit' : ∀ t d, IsDist g s t d → nw g d s t < M := fun t d hd => by
    rw [Brandes.nw_eq_length hg hs hd]
    exact hfit t (hd.1.lt hg hs)
  have hF := h.ghost
  have hlen := h.len
  have hrev : (ghost st g.length D (doneOf S0 st.phase)).S = S0.reverse.flatten := by
    show (doneOf S0 st.phase).reverse = _
    rw [← hlen]; exact doneOf_reverse S0
  have hmem : ∀ w ∈ S0.reverse.flatten, w < g.length := by
    intro w hw
    rw [← doneOf_reverse, hlen, List.mem_reverse] at hw
    obtain ⟨d, hd⟩ := (h.inv.disc w).1 (by simpa using hw)
    exact (h.inv.walk w d hd).lt hg hs
  unfold back backPhases
  cases hr : ver.root with
  | true =>
    obtain ⟨x, h1, h2⟩ := Brandes.back_correct hg hs hF rfl hfit' hc g.length
    rw [hrev] at h1
    have hL : (List.range st.phase).reverse.map (fun i => st.S[i]?) = S0.reverse.map some := by
      rw [h.S, ← hlen, List.map_reverse, List.map_reverse, range_map_get]
    rw [if_pos rfl, phases_eq (st := st) (f := backVertex st) _ _ hL,
      foldlM_congr (f' := Brandes.backStep (ghost st g.length D (doneOf S0 st.phase)) g.length) _ (fun x w hw => backVertex_eq (Nat.ne_of_lt (hmem w hw)) x), h1, res_bind_ok]
    exact ⟨_, rfl, h2.congr fun v hv => by simp [adds, hr, Nat.ne_of_lt hv]⟩
  | false =>
    obtain ⟨x, h1, h2⟩ := Brandes.back_correct hg hs hF rfl hfit' hc s
    rw [hrev] at h1
    obtain ⟨S1, rfl⟩ : ∃ S1, S0 = [s] :: S1 := by
      cases S0 with
      | nil => simp at hlen; omega
      | cons a S1 =>
        have := h.hd
        rw [h.S] at this
        simp at this
        exact ⟨S1, by rw [this]⟩
    have hphase : st.phase - 1 = S1.length := by rw [← hlen]; simp
    have hne : ∀ w ∈ S1.reverse.flatten, w ≠ s := by
      rintro w hw rfl
      have hnd := h.inv.nodup
      rw [List.append_nil, ← hlen, ← List.nodup_reverse, doneOf_reverse, List.reverse_cons, List.flatten_append, List.nodup_append] at hnd
      exact hnd.2.2 w hw w (by simp) rfl
    have hL : ((List.range (st.phase - 1)).map (· + 1)).reverse.map (fun i => st.S[i]?) = S1.reverse.map some := by
      rw [h.S, hphase, List.map_reverse, List.map_reverse, List.map_map]
      exact congrArg List.reverse (range_map_get S1 [[], []])
    rw [if_neg (by simp), phases_eq (st := st) (f := backVertex st) _ _ hL,
      foldlM_congr (f' := Brandes.backStep (ghost st g.length D (doneOf ([s] :: S1) st.phase)) s) _ (fun x w hw => backVertex_eq (hne w hw) x)]
    rw [List.reverse_cons, List.flatten_append, List.foldlM_append] at h1
    cases hA : List.foldlM (Brandes.backStep (ghost st g.length D (doneOf ([s] :: S1) st.phase)) s) (List.replicate g.length 0, bc) S1.reverse.flatten with
    | error e => rw [hA] at h1; cases h1
    | ok y =>
      rw [hA, res_bind_ok] at h1
      have hP : Pf s = [] := by
        rw [List.eq_nil_iff_forall_not_mem]
        intro v hv
        have h1 : 0 < (Pf s).count v := List.count_pos_iff.2 hv
        rw [h.cnt.cnt] at h1
        split at h1
        · rename_i hn
          obtain ⟨x, -, h2⟩ := Brandes.isNext_iff.1 hn
          rw [h.inv.root0] at h2; cases h2
        · omega
      have hstep : Brandes.backStep (ghost st g.length D (doneOf ([s] :: S1) st.phase)) s y s = .ok y := by
        unfold Brandes.backStep
        rw [show (ghost st g.length D (doneOf ([s] :: S1) st.phase)).P = st.P from rfl, h.rep.P.vget hs, res_bind_ok, hP]
        simp only [ne_eq, not_true, if_false]
        rfl
      have hlast : List.foldlM (Brandes.backStep (ghost st g.length D (doneOf ([s] :: S1) st.phase)) s) y [[s]].flatten = .ok y := by
        show List.foldlM _ y [s] = _
        rw [List.foldlM_cons, hstep]; rfl
      rw [hlast] at h1
      cases h1
      rw [res_bind_ok]
      exact ⟨_, rfl, h2.congr fun v hv => by simp [adds, hr]⟩

theorem source_gives (ver : Version) (M inf : Nat) {g : Rows α} (hg : InRange g) (hinf : g.length ≤ inf) {s : Nat} (hs : s < g.length) (hfit : ∀ t < g.length, (shortestPaths g s t).length < M)
    {bc : List ℚ} {c0 : Nat → ℚ} (hc : Vec g.length c0 bc) : Run.Gives (source ver M inf g bc s) (Vec g.length fun v => c0 v + adds ver g s v) := by
  unfold source
  obtain ⟨st, hst⟩ := init_ok M inf (n := g.length) hs
  refine (Run.gives_lift hst (Q := (· = st)) rfl).bind ?_
  rintro _ rfl
  refine (fwd_gives ver M inf hg hinf hs hst).bind ?_
  rintro r ⟨S0, D, par, G, Pf, hpos, hF⟩
  obtain ⟨x, h1, h2⟩ := back_gives ver hg hs hfit hpos hF hc
  exact Run.gives_lift h1 h2

theorem scores_gives (ver : Version) (M inf : Nat) {g : Rows α} (hg : InRange g) (hinf : g.length ≤ inf) {sources : List Nat} (hs : ∀ s ∈ sources, s < g.length) (hfit : Fits M g sources) :
    Run.Gives (scores ver M inf g sources) (· = (List.range g.length).map fun v => (sources.map fun s => adds ver g s v).sum) := by
  unfold scores
  refine Run.Gives.mono (Run.gives_foldlM (fun pre c => Vec g.length (fun v => (pre.map fun s => adds ver g s v).sum) c) ?_ ?_) fun c hc => hc.eq_map
  · exact (Vec.replicate g.length (0 : ℚ)).congr fun v _ => by simp
  · intro pre s post hl c hc
    have hm : s ∈ sources := by rw [hl]; simp
    exact (source_gives ver M inf hg hinf (hs s hm) (hfit s hm) hc).mono fun c' hc' => hc'.congr fun v _ => by simp

theorem betweenness_eq (g : Rows α) (sources : List Nat) (v : Nat) : betweenness g sources v = (sources.map fun s => if v ≠ s then dependency g s v else 0).sum := by
  unfold betweenness
  induction sources with
  | nil => rfl
  | cons s l ih =>
    by_cases e : v = s
    · subst e; simpa using ih
    · have : s ≠ v := fun h => e h.symm
      simp only [List.filter_cons, this, ne_eq, not_false_eq_true, decide_true, if_true, List.map_cons, List.sum_cons, e]
      rw [ih]

/-- The result without normalisation, and with it: every score divided by the largest one, or "not a number" if the largest score is zero. -/
def Result (scores : List ℚ) (norm : Bool) (r : List (Option ℚ)) : Prop :=
  if norm then ∃ b ∈ scores, (∀ y ∈ scores, y ≤ b) ∧ (b ≠ 0 → r = scores.map fun y => some (y / b)) ∧ (b = 0 → r = List.replicate scores.length none)
  else r = scores.map some

theorem normalise_gives {c : List ℚ} (hc : 0 < c.length) : ∃ r, Brandes.normalise c = .ok r ∧ Result c true r := by
  cases c with
  | nil => simp at hc
  | cons x xs =>
    obtain ⟨h1, h2⟩ := Brandes.foldl_max x xs
    refine ⟨_, rfl, ?_⟩
    unfold Result
    rw [if_pos rfl]
    refine ⟨xs.foldl max x, h1, h2, ?_, ?_⟩
    · intro hb
      apply List.map_congr_left
      intro y _
      rw [if_neg hb]
    · intro hb
      rw [List.eq_replicate_iff]
      refine ⟨by simp, ?_⟩
      intro y hy
      obtain ⟨z, -, rfl⟩ := List.mem_map.1 hy
      rw [if_pos hb]

theorem bc2_gives (ver : Version) (M inf : Nat) {g : Rows α} (hg : InRange g) (hn : 0 < g.length) (hinf : g.length ≤ inf) {sources : List Nat} (hs : ∀ s ∈ sources, s < g.length)
    (hfit : Fits M g sources) (norm : Bool) :
    Run.Gives (bc2 ver M inf g sources norm) (Result ((List.range g.length).map fun v => (sources.map fun s => adds ver g s v).sum) norm) := by
  unfold bc2
  refine (scores_gives ver M inf hg hinf hs hfit).bind ?_
  rintro _ rfl
  cases norm with
  | true =>
    obtain ⟨r, h1, h2⟩ := normalise_gives (c := (List.range g.length).map fun v => (sources.map fun s => adds ver g s v).sum) (by simpa using hn)
    exact Run.gives_lift h1 h2
  | false => exact Run.gives_pure (by simp [Result])

/-- The betweenness of all vertices with respect to the sources. -/
def exact (g : Rows α) (sources : List Nat) : List ℚ := (List.range g.length).map (betweenness g sources)

/-- C94.  `bc2_v1` ends without a fault and returns the betweenness of every vertex with respect to the given sources, divided by the largest one if asked to. -/
theorem bc2_v1_correct (M inf : Nat) (g : Rows α) (hg : InRange g) (hn : 0 < g.length) (hinf : g.length ≤ inf) (sources : List Nat) (hs : ∀ s ∈ sources, s < g.length)
    (hfit : Fits M g sources) (norm : Bool) : Run.Gives (bc2 v1 M inf g sources norm) (Result (exact g sources) norm) := by
  have := bc2_gives v1 M inf hg hn hinf hs hfit norm
  have e : ((List.range g.length).map fun v => (sources.map fun s => adds v1 g s v).sum) = exact g sources := by
    apply List.map_congr_left
    intro v _
    rw [betweenness_eq]
    simp [adds, v1]
  rwa [e] at this

/-- C94.  `approx_betweenness_brandes` ends without a fault and returns the betweenness of every vertex with respect to the given sources, divided by the largest one. -/
theorem approx_brandes_correct (M : Nat) (g : Rows α) (hg : InRange g) (hn : 0 < g.length) (sources : List Nat) (hs : ∀ s ∈ sources, s < g.length) (hfit : Fits M g sources) :
    Run.Gives (approxBrandes M g sources) (Result (exact g sources) true) := by
  unfold approxBrandes
  have : Run.Gives (approxScores M g sources) (· = exact g sources) := by
    unfold approxScores
    refine Run.Gives.mono (Run.gives_foldlM (fun pre c => Vec g.length (fun v => betweenness g pre v) c) ?_ ?_) fun c hc => hc.eq_map
    · exact (Vec.replicate g.length (0 : ℚ)).congr fun v _ => by simp [betweenness]
    · intro pre s post hl c hc
      have hm : s ∈ sources := by rw [hl]; simp
      refine (Brandes.source_gives_of M hg (hfit s hm) (hs s hm) hc).mono fun c' hc' => hc'.congr fun v _ => ?_
      rw [betweenness_eq, betweenness_eq]
      simp
  refine this.bind ?_
  rintro _ rfl
  obtain ⟨r, h1, h2⟩ := normalise_gives (c := exact g sources) (by simpa [exact] using hn)
  exact Run.gives_lift h1 h2

/-- C95 (what holds).  Missing: that the scores of the sources are their betweenness.  `bc2_v0` ends without a fault; the score of `v` is its betweenness with respect to the sources,
plus the number of other vertices reached from `v` for each occurrence of `v` among the sources. -/
theorem bc2_v0_partial (M inf : Nat) (g : Rows α) (hg : InRange g) (hn : 0 < g.length) (hinf : g.length ≤ inf) (sources : List Nat) (hs : ∀ s ∈ sources, s < g.length)
    (hfit : Fits M g sources) (norm : Bool) : Run.Gives (bc2 v0 M inf g sources norm) (Result ((List.range g.length).map (parScore g sources)) norm) := by
  have := bc2_gives v0 M inf hg hn hinf hs hfit norm
  have e : ((List.range g.length).map fun v => (sources.map fun s => adds v0 g s v).sum) = (List.range g.length).map (parScore g sources) := by
    apply List.map_congr_left
    intro v hv
    rw [← sum_dependency hg (List.mem_range.1 hv)]
    simp [adds, v0]
  rwa [e] at this

/-- C95 fails: a source with an edge to another vertex gets a score that is too large. -/
theorem bc2_v0_source_wrong (M inf : Nat) (g : Rows α) (hg : InRange g) (hinf : g.length ≤ inf) (sources : List Nat) (hs : ∀ s ∈ sources, s < g.length)
    (hfit : Fits M g sources) {v w : Nat} (hv : v ∈ sources) (he : Edge g v w) (hne : w ≠ v) :
    Run.Gives (bc2 v0 M inf g sources false) (fun r => ∃ y, r[v]? = some (some y) ∧ betweenness g sources v < y) := by
  refine (bc2_v0_partial M inf g hg (Nat.lt_of_le_of_lt (Nat.zero_le _) (hs v hv)) hinf sources hs hfit false).mono ?_
  intro r hr
  have hr : r = ((List.range g.length).map (parScore g sources)).map some := by simpa [Result] using hr
  subst hr
  refine ⟨parScore g sources v, by rw [List.getElem?_map, List.getElem?_map, List.getElem?_range (hs v hv)]; rfl, ?_⟩
  have h3 : 0 < sources.count v := List.count_pos_iff.2 hv
  have h4 : 0 < reached g v := BrandesPar.reached_pos hg he hne
  have h5 : (0 : ℚ) < (sources.count v : ℚ) * (reached g v : ℚ) := mul_pos (by exact_mod_cast h3) (by exact_mod_cast h4)
  unfold parScore
  linarith

/-- The normalisation of the scores of the empty graph dereferences the end of an empty range. -/
theorem bc2_empty (ver : Version) (M inf : Nat) : Run.Faults (bc2 ver M inf ([] : Rows α) [] true) .emptyContainer := by
  have h : Run.Gives (scores ver M inf ([] : Rows α) []) (· = []) := Run.gives_pure rfl
  unfold bc2
  refine h.bind_faults ?_
  rintro _ rfl
  simp only [if_true]
  exact Run.faults_lift rfl

/-! ## Examples: the square with a tail, sources 0 and 1 -/

example : Run.Gives (bc2 v1 (2 ^ 64) (2 ^ 32 - 1) Brandes.exG [0, 1] false) (· = [some 0, some 1, some 1, some 3, some 0].set 3 (some 2)) := by
  refine (bc2_v1_correct _ _ _ Brandes.exG_inRange (by decide) (by decide) [0, 1] (by decide) ?_ false).mono ?_
  · intro s hs t ht
    exact Brandes.exG_fit s (by revert s; decide) t ht
  · intro r hr
    have hr : r = (exact Brandes.exG [0, 1]).map some := by simpa [Result] using hr
    rw [hr]
    have : exact Brandes.exG [0, 1] = [0, 1, 1, 2, 0] := by decide +kernel
    rw [this]; rfl

example : Run.Gives (approxBrandes (2 ^ 64) Brandes.exG [0, 1]) (· = [some 0, some (1 / 2), some (1 / 2), some 1, some 0]) := by
  refine (approx_brandes_correct _ _ Brandes.exG_inRange (by decide) [0, 1] (by decide) ?_).mono ?_
  · intro s hs t ht
    exact Brandes.exG_fit s (by revert s; decide) t ht
  · intro r hr
    have he : exact Brandes.exG [0, 1] = [0, 1, 1, 2, 0] := by decide +kernel
    rw [he] at hr
    obtain ⟨b, hb, hm, h1, h2⟩ : ∃ b ∈ ([0, 1, 1, 2, 0] : List ℚ), (∀ y ∈ ([0, 1, 1, 2, 0] : List ℚ), y ≤ b) ∧ (b ≠ 0 → r = ([0, 1, 1, 2, 0] : List ℚ).map fun y => some (y / b)) ∧ _ := by
      simpa only [Result, if_true] using hr
    have h3 := hm 2 (by simp)
    have hb2 : b = 2 := by
      simp only [List.mem_cons, List.not_mem_nil, or_false] at hb
      rcases hb with h | h | h | h | h <;> subst h <;> first | rfl | (norm_num at h3)
    subst hb2
    rw [h1 (by norm_num)]
    norm_num

/-- Vertex 0 reaches all four others, so it gets the score 4 instead of 0. -/
example : Run.Gives (bc2 v0 (2 ^ 64) (2 ^ 32 - 1) Brandes.exG [0] false) (fun r => ∃ y, r[0]? = some (some y) ∧ 0 < y) := by
  refine (bc2_v0_source_wrong _ _ _ Brandes.exG_inRange (by decide) [0] (by decide) ?_ (v := 0) (w := 1) (by decide) (by decide) (by decide)).mono ?_
  · intro s hs t ht
    exact Brandes.exG_fit s (by revert s; decide) t ht
  · rintro r ⟨y, h1, h2⟩
    have : betweenness Brandes.exG [0] 0 = 0 := by decide +kernel
    exact ⟨y, h1, by rwa [this] at h2⟩

end NW.BcExp
