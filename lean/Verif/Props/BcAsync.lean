import Verif.Lemmas.BcAsyncBack

/-!
# C107: approx_betweenness_worklist

The version with a work list that several threads treat.  A thread takes an item and then leaves if the work list has become empty, so that the last item is always lost.
-/

namespace NW.BcAsync
open Spec
open NW.Brandes (Vec)
open NW.BcWork (Node Back backPred)

variable {α : Type}

theorem start_ok {M inf : Nat} (hM : 0 < M) {g : Rows α} (hg : InRange g) (hinf : g.length < inf) {s : Nat} (hs : s < g.length) (threads : Nat) :
    ∃ vs st F, BcWork.init M inf g.length s = .ok vs ∧ start g s threads vs = .ok st ∧ TI M inf g s (nbrs g s ≠ []) F st := by
  obtain ⟨vs, F, e1, e2, e3, e4⟩ := init_ok hM (by omega) hs
  have hnb : nbrs g s = (g[s]'hs).map Prod.fst := by simp [nbrs, hs]
  refine ⟨vs, { vs := vs, W := (g[s]'hs).map fun e => (s, e.1), ts := List.replicate threads .fetch, lost := [] }, F, e1, ?_, e2, e3, ?_, ?_, ?_, ?_⟩
  · unfold start
    rw [vget_of_lt hs, res_bind_ok]; rfl
  · intro x y hxy hx _
    rw [e4] at hx
    have hxs : x = s := by
      by_contra c
      rw [if_neg c] at hx; exact hx rfl
    subst hxs
    have : y ∈ nbrs g x := hxy
    rw [hnb] at this
    obtain ⟨e, he, rfl⟩ := List.mem_map.1 this
    exact Or.inl (List.mem_map.2 ⟨e, he, rfl⟩)
  · rintro e (k | k | ⟨i, t, hi, k⟩)
    · obtain ⟨x, hx, rfl⟩ := List.mem_map.1 k
      refine ⟨?_, ?_⟩
      · show x.1 ∈ nbrs g s
        rw [hnb]
        exact List.mem_map.2 ⟨x, hx, rfl⟩
      · show (F s).l ≠ inf
        rw [e4, if_pos rfl]
        omega
    · simp at k
    · rw [List.eq_of_mem_replicate (List.mem_of_getElem? hi)] at k
      simp [Thr.items] at k
  · intro h
    have h : 0 < threads := by simpa using h
    refine Or.inl ⟨.fetch, ?_, by simp⟩
    rw [List.mem_replicate]
    exact ⟨by omega, rfl⟩
  · intro hne
    left
    rw [hnb] at hne
    simpa using hne

/-- The state in which the loop after the threads begins. -/
theorem TI.again {M inf : Nat} {g : Rows α} {s : Nat} {ne : Prop} {F : Nat → Node} {st : St} (h : TI M inf g s ne F st) (hend : ∀ t ∈ st.ts, t = .ended) : TI M inf g s ne F { st with ts := [.fetch] } := by
  have hbag : ∀ e, InBag { st with ts := [.fetch] } e ↔ InBag st e := by
    intro e
    unfold InBag
    constructor
    · rintro (k | k | ⟨i, t, hi, k⟩)
      · exact Or.inl k
      · exact Or.inr (Or.inl k)
      · have := List.mem_of_getElem? hi
        rw [List.mem_singleton] at this
        subst this
        simp [Thr.items] at k
    · rintro (k | k | ⟨i, t, hi, k⟩)
      · exact Or.inl k
      · exact Or.inr (Or.inl k)
      · rw [hend t (List.mem_of_getElem? hi)] at k
        simp [Thr.items] at k
  refine ⟨h.vec, h.ci, fun x y a b c => (hbag _).2 (h.act x y a b c), fun e he => h.items e ((hbag e).1 he), ?_, ?_⟩
  · intro _
    exact Or.inl ⟨.fetch, by simp, by simp⟩
  · intro hne
    rcases h.kept hne with k | k | ⟨i, e, k⟩
    · exact Or.inl k
    · exact Or.inr (Or.inl k)
    · have := hend _ (List.mem_of_getElem? k)
      cases this

/-- C107, the search.  In a graph without loops, for any number of threads and any interleaving of them, the search ends without a fault and without a deadlock: every execution of the threads is finite, and so
is every execution of the loop after them.  Then the work list is empty, at least one item has been lost if the source has an edge, and if the lost items would change nothing, every level, path count,
predecessor and successor is right.  What is missing: that no item is lost, which is false (`single_edge_lost`). -/
theorem search_partial (M inf : Nat) (hM : 0 < M) (g : Rows α) (hg : InRange g) (hloop : ∀ u, ¬ Edge g u u) (hinf : g.length < inf) (s : Nat) (hs : s < g.length) (threads : Nat) :
    ∃ vs st, BcWork.init M inf g.length s = .ok vs ∧ start g s threads vs = .ok st ∧
      Sure (Step M inf true g) (fun st1 => Sure (Step M inf false g) (Left M inf g s (nbrs g s ≠ [])) { st1 with ts := [.fetch] }) st := by
  obtain ⟨vs, st, F, e1, e2, h⟩ := start_ok hM hg hinf hs threads
  refine ⟨vs, st, e1, e2, (threads_sure hinf hM hg hloop h).mono ?_⟩
  rintro st1 ⟨⟨F1, h1⟩, hend, -⟩
  refine (threads_sure hinf hM hg hloop (h1.again hend)).mono ?_
  rintro r ⟨⟨F2, h2⟩, hend2, hlen⟩
  exact h2.left hinf hM hg hs hend2 (by rw [hlen]; simp)

/-- C107.  The same for the whole search. -/
theorem search_gives_partial (M inf : Nat) (hM : 0 < M) (g : Rows α) (hg : InRange g) (hloop : ∀ u, ¬ Edge g u u) (hinf : g.length < inf) (s : Nat) (hs : s < g.length) (threads : Nat) :
    Run.Gives (search M inf g threads s) (Left M inf g s (nbrs g s ≠ [])) := by
  obtain ⟨vs, st, e1, e2, h⟩ := search_partial M inf hM g hg hloop hinf s hs threads
  unfold search
  refine (Run.gives_lift e1 (Q := (· = vs)) rfl).bind ?_
  rintro _ rfl
  refine (Run.gives_lift e2 (Q := (· = st)) rfl).bind ?_
  rintro _ rfl
  have hg1 : ∀ {Q : St → Prop} {b : Bool} {x : St}, Sure (Step M inf b g) Q x → Run.Gives (Runs (Step M inf b g) x : Run St) Q := fun hh => ⟨hh.exists_run.elim fun r hr => ⟨_, hr.1⟩, fun o ho => hh.outcome ho⟩
  exact (hg1 h).bind fun st1 h1 => hg1 h1

theorem chain_iff {g : Rows α} {s : Nat} {F : Nat → Node} (hS : ∀ u w, w ∈ (F u).succs → ∃ d, IsDist g s u d ∧ IsDist g s w (d + 1) ∧ Edge g u w)
    (hS' : ∀ u w d, IsDist g s u d → IsDist g s w (d + 1) → Edge g u w → w ∈ (F u).succs) (v w : Nat) : Chain F v w ↔ OnTheWay g s v w := by
  have happ : ∀ {u v w j k : Nat}, Walk g u v j → Walk g v w k → Walk g u w (j + k) := by
    intro u v w j k h1 h2
    induction h2 with
    | nil => exact h1
    | snoc _ e ih => exact .snoc ih e
  have hsnoc : ∀ u v w, Chain F u v → w ∈ (F v).succs → Chain F u w := by
    intro u v w h1 h2
    induction h1 with
    | refl => exact .step h2 (.refl _)
    | step a _ ih => exact .step a (ih h2)
  constructor
  · intro h
    induction h with
    | refl => exact Or.inl rfl
    | @step a u b hs _ ih =>
      right
      obtain ⟨d, h1, h2, h3⟩ := hS a u hs
      rcases ih with rfl | ⟨d', k, k1, k2, k3⟩
      · exact ⟨d, 1, h1, .snoc .nil h3, h2⟩
      · have := h2.unique k1
        subst this
        refine ⟨d, 1 + k, h1, happ (.snoc .nil h3) k2, ?_⟩
        rw [← Nat.add_assoc]; exact k3
  · rintro (rfl | ⟨d, k, h1, h2, h3⟩)
    · exact .refl _
    · induction h2 with
      | nil => exact .refl _
      | @snoc x y k hw he ih =>
        have hx : IsDist g s x (d + k) := by
          refine ⟨happ h1.1 hw, fun j hj => ?_⟩
          have := h3.2 (j + 1) (.snoc hj he)
          omega
        exact hsnoc v x y (ih hx) (hS' x y _ hx h3 he)

theorem back_start {g : Rows α} {cent : List ℚ} (hc : cent.length = g.length) : Vec g.length (fun v => cent.getD v 0) cent := by
  refine ⟨hc, fun v hv => ?_⟩
  rw [← hc] at hv
  simp [hv]

/-- C107, the way back.  If the search has found everything, then for any number of threads and any interleaving of them the way back ends without a fault and without a deadlock.  At least one vertex is lost.
The score of every vertex grows by the whole dependency of the source on it if it is not on the way to a lost vertex, and is unchanged otherwise: nothing is counted twice or in part. -/
theorem back_partial (M inf : Nat) (g : Rows α) (hg : InRange g) (hinf : g.length < inf) (s : Nat) (hs : s < g.length) (hfit : ∀ t < g.length, (shortestPaths (simple g) s t).length < M) (vs : List Node)
    (hv : Spec.Searched M inf g s vs) (threads : Nat) (ht : 0 < threads) (cent : List ℚ) (hc : cent.length = g.length) :
    Sure (BStep inf vs s) (BackLeft g s cent) (backStart vs threads cent) := by
  obtain ⟨hF, hS, hS'⟩ := found hg hs hinf hfit hv
  have hcv := back_start hc
  refine (back_sure (ne := True) hinf hF (back_init hF hcv (fun _ => by omega) threads)).mono ?_
  rintro r ⟨⟨A, h⟩, hend, hlen⟩
  obtain ⟨h1, h2, h3, h4, h5⟩ := h.final hF hend (by rw [hlen]; simpa [backStart] using ht)
  have hcent : ∀ (v : Nat) (c : ℚ), cent[v]? = some c → v < g.length ∧ r.b.cent[v]? = some (c + if v ∈ r.fin then dependency (simple g) s v else 0) := by
    intro v c hvc
    have hvn : v < g.length := by rw [← hc]; exact (List.getElem?_eq_some_iff.1 hvc).1
    refine ⟨hvn, ?_⟩
    rw [h.cent.2 v hvn]
    have : cent.getD v 0 = c := by rw [List.getD_eq_getElem?_getD, hvc]; rfl
    simp only [this]
  have hdep : (nodeAt vs s).succs = [] → dependency (simple g) s s = 0 := by
    intro hnil
    rw [← hF.total s hs]
    apply Finset.sum_eq_zero
    intro w hw
    unfold pt
    rw [if_neg]
    intro hh
    have := (hF.sp s hs w).2 ⟨by simpa using hw, hh⟩
    rw [hnil] at this; simp at this
  refine ⟨h1, by rw [h.cent.1, hc], h2 trivial, ?_, ?_⟩
  · intro v c hvc hvs hno
    obtain ⟨hvn, e⟩ := hcent v c hvc
    have : v ∈ r.fin := by
      by_contra hf
      obtain ⟨w, hw, hch⟩ := (h4 v hvn (Or.inl hvs)).1 hf
      exact hno ⟨w, hw, (chain_iff hS hS' v w).1 hch⟩
    rw [e, if_pos this]
  · intro v c hvc hor
    obtain ⟨hvn, e⟩ := hcent v c hvc
    by_cases hvs : v = s
    · subst hvs
      by_cases hnil : (nodeAt vs v).succs = []
      · rw [e, hdep hnil]; simp
      · rw [e, if_neg (h5 hnil)]; simp
    · have : v ∉ r.fin := by
        rcases hor with k | ⟨w, hw, k⟩
        · exact absurd k hvs
        · exact (h4 v hvn (Or.inl hvs)).2 ⟨w, hw, (chain_iff hS hS' v w).2 k⟩
      rw [e, if_neg this]; simp

/-- With the only edge of the source in the work list, no thread gets beyond its test. -/
def Idle (vs0 : List Node) (e : Nat × Nat) (st : St) : Prop :=
  st.vs = vs0 ∧ ((st.W = [e] ∧ ∀ t ∈ st.ts, t = .fetch ∨ t = .ended) ∨ (st.W = [] ∧ ∀ t ∈ st.ts, t = .fetch ∨ t = .ended ∨ ∃ x, t = .test x))

def idleWt : Thr → Nat
  | .fetch => 2
  | .test _ => 1
  | _ => 0

theorem mem_set_cases {β : Type} {l : List β} {i : Nat} {x y : β} (h : y ∈ l.set i x) : y = x ∨ y ∈ l := by
  rcases List.mem_or_eq_of_mem_set h with k | k
  · exact Or.inr k
  · exact Or.inl k

theorem idle_sure (M inf : Nat) (locks : Bool) (g : Rows α) (vs0 : List Node) (e : Nat × Nat) (st : St) (h : Idle vs0 e st) :
    Sure (Step M inf locks g) (fun r => Idle vs0 e r ∧ ∀ t ∈ r.ts, t = .ended) st := by
  refine Sure.of_inv (lt := (· < ·)) Nat.lt_wfRel.wf (fun r => (r.ts.map idleWt).sum) (Idle vs0 e) ?_ ?_ st h
  · rintro r ⟨-, h⟩
    by_cases c : ∀ t ∈ r.ts, t = .ended
    · exact ⟨_, .join c⟩
    · have : ∃ t ∈ r.ts, t ≠ .ended := by
        by_contra hh
        exact c fun t ht => by
          by_contra hne
          exact hh ⟨t, ht, hne⟩
      obtain ⟨t, ht, hne⟩ := this
      obtain ⟨i, hi⟩ := List.getElem?_of_mem ht
      rcases h with ⟨hW, h⟩ | ⟨hW, h⟩
      · rcases h t ht with rfl | rfl
        · exact ⟨_, .take (pre := []) hi hW⟩
        · exact absurd rfl hne
      · rcases h t ht with rfl | rfl | ⟨x, rfl⟩
        · exact ⟨_, .none hi hW⟩
        · exact absurd rfl hne
        · exact ⟨_, .leave hi hW⟩
  · rintro r o ⟨hv, h⟩ hs
    cases hs with
    | @take i e' pre post ht hW =>
      left
      rcases h with ⟨hW', h⟩ | ⟨hW', -⟩
      · refine ⟨_, rfl, ⟨hv, Or.inr ⟨?_, ?_⟩⟩, ?_⟩
        · rw [hW'] at hW
          cases pre with
          | nil =>
            simp at hW ⊢
            exact hW.2
          | cons a pre => simp at hW
        · intro t ht
          rcases mem_set_cases ht with rfl | k
          · exact Or.inr (Or.inr ⟨_, rfl⟩)
          · rcases h t k with k | k
            · exact Or.inl k
            · exact Or.inr (Or.inl k)
        · have := sum_map_set idleWt (.test (some e')) ht
          simp only [idleWt] at this
          show ((r.ts.set i (.test (some e'))).map idleWt).sum < _
          omega
      · rw [hW'] at hW; simp at hW
    | @none i ht hW =>
      left
      rcases h with ⟨hW', -⟩ | ⟨-, h⟩
      · rw [hW'] at hW; simp at hW
      · refine ⟨_, rfl, ⟨hv, Or.inr ⟨hW, ?_⟩⟩, ?_⟩
        · intro t ht
          rcases mem_set_cases ht with rfl | k
          · exact Or.inr (Or.inr ⟨_, rfl⟩)
          · exact h t k
        · have := sum_map_set idleWt (.test none) ht
          simp only [idleWt] at this
          show ((r.ts.set i (.test none)).map idleWt).sum < _
          omega
    | @leave i x ht hW =>
      left
      rcases h with ⟨hW', -⟩ | ⟨-, h⟩
      · rw [hW'] at hW; simp at hW
      · refine ⟨_, rfl, ⟨hv, Or.inr ⟨hW, ?_⟩⟩, ?_⟩
        · intro t ht
          rcases mem_set_cases ht with rfl | k
          · exact Or.inr (Or.inl rfl)
          · exact h t k
        · have := sum_map_set idleWt .ended ht
          simp only [idleWt] at this
          show ((r.ts.set i .ended).map idleWt).sum < _
          omega
    | @item i u v ht hW _ =>
      exfalso
      rcases h with ⟨-, h⟩ | ⟨hW', -⟩
      · rcases h _ (List.mem_of_getElem? ht) with k | k <;> cases k
      · exact hW hW'
    | @dummy i x ht hW _ =>
      exfalso
      rcases h with ⟨-, h⟩ | ⟨hW', -⟩
      · rcases h _ (List.mem_of_getElem? ht) with k | k <;> cases k
      · exact hW hW'
    | @apply i u v ord ht _ _ =>
      exfalso
      rcases h with ⟨-, h⟩ | ⟨-, h⟩
      · rcases h _ (List.mem_of_getElem? ht) with k | k <;> cases k
      · rcases h _ (List.mem_of_getElem? ht) with k | k | ⟨x, k⟩ <;> cases k
    | @push i a es ht =>
      exfalso
      rcases h with ⟨-, h⟩ | ⟨-, h⟩
      · rcases h _ (List.mem_of_getElem? ht) with k | k <;> cases k
      · rcases h _ (List.mem_of_getElem? ht) with k | k | ⟨x, k⟩ <;> cases k
    | @pushed i ht =>
      exfalso
      rcases h with ⟨-, h⟩ | ⟨-, h⟩
      · rcases h _ (List.mem_of_getElem? ht) with k | k <;> cases k
      · rcases h _ (List.mem_of_getElem? ht) with k | k | ⟨x, k⟩ <;> cases k
    | join hh => exact Or.inr ⟨r, rfl, ⟨hv, h⟩, hh⟩

theorem gives_runs {σ τ : Type} {step : σ → Res (σ ⊕ τ) → Prop} {Q : τ → Prop} {x : σ} (h : Sure step Q x) : Run.Gives (Runs step x : Run τ) Q :=
  ⟨h.exists_run.elim fun r hr => ⟨_, hr.1⟩, fun _ ho => h.outcome ho⟩

/-- Nothing has been found. -/
theorem found_init {M inf n s : Nat} {vs : List Node} (h : BcWork.init M inf n s = .ok vs) (hs : s < n) : ∃ F, Found n s (fun _ => 0) F vs := by
  obtain ⟨vs', h1, h2⟩ := BcWork.modify_vec (Vec.replicate n { l := inf, pc := 0, preds := [], succs := [], edge := fun _ => (0, 0) }) hs fun x => { x with l := 0, pc := 1 % M }
  have h1' : BcWork.init M inf n s = .ok vs' := h1
  rw [h] at h1'
  cases h1'
  have hp : ∀ w, ((if w = s then { l := 0, pc := 1 % M, preds := [], succs := [], edge := fun _ => (0, 0) } else { l := inf, pc := 0, preds := [], succs := [], edge := fun _ => (0, 0) }) : Node).preds = [] := by
    intro w; split <;> rfl
  have hsu : ∀ w, ((if w = s then { l := 0, pc := 1 % M, preds := [], succs := [], edge := fun _ => (0, 0) } else { l := inf, pc := 0, preds := [], succs := [], edge := fun _ => (0, 0) }) : Node).succs = [] := by
    intro w; split <;> rfl
  refine ⟨fun w => if w = s then { l := 0, pc := 1 % M, preds := [], succs := [], edge := fun _ => (0, 0) } else { l := inf, pc := 0, preds := [], succs := [], edge := fun _ => (0, 0) }, h2, ?_, ?_, ?_, ?_, ?_, ?_⟩
  · intro w _ u hu
    rw [hp] at hu; simp at hu
  · intro w _; rw [hp]; simp
  · intro w _; rw [hsu]; simp
  · intro z _ w; rw [hsu, hp]; simp
  · intro z _
    apply Finset.sum_eq_zero
    intro w _
    unfold pt
    rw [hp]; simp
  · intro u _ w hw
    rw [hsu] at hw; simp at hw

/-- C107: the disagreement.  If the source has exactly one edge, then in every execution, with any number of threads, that edge is taken and never treated: no vertex is reached, and no score changes. -/
theorem single_edge_lost (M inf : Nat) (g : Rows α) (hinf : g.length < inf) (s w : Nat) (x : α) (hs : g[s]? = some [(w, x)]) (threads : Nat) (cent : List ℚ) (hc : cent.length = g.length) :
    Run.Gives (source M inf g threads cent s) (· = cent) := by
  obtain ⟨hsn, hrow⟩ := List.getElem?_eq_some_iff.1 hs
  obtain ⟨vs, h1, -⟩ := BcWork.modify_vec (Vec.replicate g.length { l := inf, pc := 0, preds := [], succs := [], edge := fun _ => (0, 0) }) hsn fun x => { x with l := 0, pc := 1 % M }
  have hvs : BcWork.init M inf g.length s = .ok vs := h1
  have hst : start g s threads vs = .ok { vs := vs, W := [(s, w)], ts := List.replicate threads .fetch, lost := [] } := by
    unfold start
    rw [vget_of_lt hsn, res_bind_ok, hrow]; rfl
  unfold source search
  refine Run.Gives.bind (Q := fun st => st.vs = vs) ?_ ?_
  · refine (Run.gives_lift hvs (Q := (· = vs)) rfl).bind ?_
    rintro vs rfl
    refine (Run.gives_lift hst (Q := (· = _)) rfl).bind ?_
    rintro _ rfl
    refine (gives_runs (idle_sure M inf true g vs (s, w) _ ⟨rfl, Or.inl ⟨rfl, fun t ht => Or.inl (List.eq_of_mem_replicate ht)⟩⟩)).bind ?_
    rintro st1 ⟨⟨a1, a2⟩, -⟩
    refine (gives_runs (idle_sure M inf false g vs (s, w) { st1 with ts := [.fetch] } ⟨a1, ?_⟩)).mono fun r hr => hr.1.1
    rcases a2 with ⟨k, -⟩ | ⟨k, -⟩
    · exact Or.inl ⟨k, fun t ht => Or.inl (List.mem_singleton.1 ht)⟩
    · exact Or.inr ⟨k, fun t ht => Or.inl (List.mem_singleton.1 ht)⟩
  · rintro st rfl
    obtain ⟨F, hF⟩ := found_init hvs hsn
    refine (gives_runs (back_sure (ne := False) hinf hF (back_init hF (back_start hc) (fun hh => hh.elim) threads))).bind ?_
    rintro r ⟨⟨A, h⟩, -, -⟩
    refine Run.gives_pure ?_
    apply List.ext_getElem?
    intro v
    by_cases hv : v < g.length
    · rw [h.cent.2 v hv]
      have hv' : v < cent.length := by rw [hc]; exact hv
      simp [hv']
    · rw [List.getElem?_eq_none (by rw [h.cent.1]; omega), List.getElem?_eq_none (by omega)]

/-- C107.  Hence from sources with one edge each all scores are zero. -/
theorem single_edge_zero (M inf : Nat) (g : Rows α) (hinf : g.length < inf) (sources : List Nat) (hs : ∀ s ∈ sources, ∃ w x, g[s]? = some [(w, x)]) (threads : Nat) :
    Run.Gives (worklist M inf g threads sources) (· = List.replicate g.length 0) := by
  unfold worklist
  refine Run.gives_foldlM (fun _ c => c = List.replicate g.length 0) rfl ?_
  rintro pre s post hl _ rfl
  obtain ⟨w, x, hw⟩ := hs s (by rw [hl]; simp)
  exact single_edge_lost M inf g hinf s w x hw threads _ (by simp)

/-- The path 0, 1, 2. -/
def exPath : Rows Unit := [[(1, ())], [(2, ())], []]

/-- C107.  On a path of three vertices the middle one has betweenness 1, and the function returns 0 for it, whatever the threads do. -/
theorem worklist_wrong (M inf : Nat) (hinf : 3 < inf) (threads : Nat) : Run.Gives (worklist M inf exPath threads [0]) (· = [0, 0, 0]) ∧ betweenness exPath [0] 1 = 1 := by
  refine ⟨single_edge_zero M inf exPath hinf [0] (fun s hs => ⟨1, (), by rw [List.mem_singleton.1 hs]; rfl⟩) threads, ?_⟩
  decide +kernel

/-- A loop at the source 1, twice. -/
def exLoop : Rows Unit := [[], [(1, ()), (1, ())]]

/-- C107: the second disagreement.  A thread that treats a loop locks the same vertex twice and waits for ever. -/
theorem self_loop_deadlock (M inf : Nat) (vs : List Node) : ∃ st st', start exLoop 1 1 vs = .ok st ∧ Steps (Step M inf true exLoop) st st' ∧ ∀ o, ¬ Step M inf true exLoop st' o := by
  refine ⟨_, { vs := vs, W := [(1, 1)], ts := [.hold 1 1], lost := [] }, rfl, ?_, ?_⟩
  · refine .tail (.tail (.refl _) (.take (i := 0) (e := (1, 1)) (pre := []) (post := [(1, 1)]) rfl rfl)) (.item (i := 0) (u := 1) (v := 1) rfl (by simp) (by simp))
  · intro o hs
    have hget : ∀ (i : Nat) (t : Thr), ([Thr.hold 1 1] : List Thr)[i]? = some t → t = .hold 1 1 := fun i t h => List.mem_singleton.1 (List.mem_of_getElem? h)
    cases hs with
    | take ht _ => cases hget _ _ ht
    | none ht _ => cases hget _ _ ht
    | leave ht _ => cases hget _ _ ht
    | item ht _ _ => cases hget _ _ ht
    | dummy ht _ _ => cases hget _ _ ht
    | apply ht hl _ =>
      cases hget _ _ ht
      exact hl rfl rfl
    | push ht => cases hget _ _ ht
    | pushed ht => cases hget _ _ ht
    | join h => cases h (.hold 1 1) (by simp)

/-! ## Examples -/

/-- Two ways from 0 to 3. -/
def exTwo : Rows Unit := [[(1, ()), (2, ())], [(3, ())], [(3, ())], []]

theorem exTwo_inRange : InRange exTwo := by
  intro u w h
  have hu : u < 4 := h.src_lt
  have h' : w ∈ nbrs exTwo u := h
  match u, hu with
  | 0, _ => revert h'; simp [exTwo, nbrs]; show _ → w < 4; omega
  | 1, _ => revert h'; simp [exTwo, nbrs]; show _ → w < 4; omega
  | 2, _ => revert h'; simp [exTwo, nbrs]; show _ → w < 4; omega
  | 3, _ => revert h'; simp [exTwo, nbrs]

theorem exTwo_loops (u : Nat) : ¬ Edge exTwo u u := by
  intro h
  have hu : u < 4 := h.src_lt
  have h' : u ∈ nbrs exTwo u := h
  match u, hu with
  | 0, _ => revert h'; simp [exTwo, nbrs]
  | 1, _ => revert h'; simp [exTwo, nbrs]
  | 2, _ => revert h'; simp [exTwo, nbrs]
  | 3, _ => revert h'; simp [exTwo, nbrs]

/-- The hypotheses of `search_partial` hold, and the source has an edge: an item is lost in every execution with three threads. -/
example : Run.Gives (search 256 9 exTwo 3 0) (fun r => r.W = [] ∧ r.lost ≠ []) :=
  (search_gives_partial 256 9 (by decide) exTwo exTwo_inRange exTwo_loops (by decide) 0 (by decide) 3).mono fun _ h => ⟨h.empty, h.lost (by decide)⟩

/-- Two edges from 0 to 1. -/
def exTwin : Rows Unit := [[(1, ()), (1, ())], []]

/-- An execution in which the lost item would change nothing: the hypothesis of `settled` is met, and 1 has been reached. -/
theorem exTwin_run : ∃ vs st r, BcWork.init 256 9 2 0 = .ok vs ∧ start exTwin 0 1 vs = .ok st ∧ Runs (Step 256 9 true exTwin) st (.ok r) ∧ r.lost = [(0, 1)] ∧ (r.vs[1]?.map fun x => (x.l, x.pc)) = some (1, 1) ∧
    BcWork.work 256 9 (fun _ l => l) exTwin r.vs 0 1 = .ok (r.vs, []) := by
  apply Exists.intro
  apply Exists.intro
  apply Exists.intro
  refine ⟨rfl, rfl, ?_, ?_, ?_, ?_⟩
  · refine .step (.take (i := 0) (e := (0, 1)) (pre := []) (post := [(0, 1)]) rfl rfl) ?_
    refine .step (.item (i := 0) (u := 0) (v := 1) rfl (by simp) (by simp)) ?_
    refine .step (.apply (i := 0) (u := 0) (v := 1) (ord := fun _ l => l) rfl (by simp) fun _ l => List.Perm.refl l) ?_
    refine .step (.pushed (i := 0) rfl) ?_
    refine .step (.take (i := 0) (e := (0, 1)) (pre := []) (post := []) rfl rfl) ?_
    refine .step (.leave (i := 0) (x := some (0, 1)) rfl rfl) ?_
    exact .done (.join (by simp))
  · rfl
  · rfl
  · rfl

theorem exTwin_edge {u w : Nat} (h : Edge exTwin u w) : u = 0 ∧ w = 1 := by
  have hu : u < 2 := h.src_lt
  have h' : w ∈ nbrs exTwin u := h
  match u, hu with
  | 0, _ => revert h'; simp [exTwin, nbrs]
  | 1, _ => revert h'; simp [exTwin, nbrs]

/-- The hypotheses of `back_partial` are met at the end of this execution, and the loop after it. -/
example : ∃ vs, Spec.Searched 256 9 exTwin 0 vs ∧ Sure (BStep 9 vs 0) (BackLeft exTwin 0 [0, 0]) (backStart vs 2 [0, 0]) := by
  have hg : InRange exTwin := fun u w h => by obtain ⟨-, rfl⟩ := exTwin_edge h; decide
  have hl : ∀ u, ¬ Edge exTwin u u := fun u h => by have := exTwin_edge h; omega
  obtain ⟨vs, st, r, e1, e2, e3, e4, -, e5⟩ := exTwin_run
  obtain ⟨vs', st', f1, f2, f3⟩ := search_partial 256 9 (by decide) exTwin hg hl (by decide) 0 (by decide) 1
  have f1 : BcWork.init 256 9 2 0 = .ok vs' := f1
  rw [e1] at f1; cases f1
  rw [e2] at f2; cases f2
  obtain ⟨r', h1, h2⟩ := f3.outcome e3
  cases h1
  have hW : r.W = [] := by
    obtain ⟨hs, hr⟩ := start_ok (M := 256) (inf := 9) (by decide) hg (by decide) (s := 0) (by decide) 1
    obtain ⟨st2, F, g1, g2, g3⟩ := hr
    have g1 : BcWork.init 256 9 2 0 = .ok hs := g1
    rw [e1] at g1; cases g1
    rw [e2] at g2; cases g2
    obtain ⟨r2, k1, ⟨F2, k2⟩, k3, k4⟩ := (threads_sure (by decide) (by decide) hg hl g3).outcome e3
    cases k1
    rcases k2.live (by rw [k4]; have := e2; unfold start at this; rw [vget_of_lt (by decide), res_bind_ok] at this; cases this; simp) with ⟨t, ht, hne⟩ | k
    · exact absurd (k3 t ht) hne
    · exact k
  have hrun : Runs (Step 256 9 false exTwin) { r with ts := [.fetch] } (.ok { r with ts := [.ended], lost := r.lost ++ [] }) := by
    refine .step (.none (i := 0) rfl hW) (.step (.leave (i := 0) (x := none) rfl hW) (.done (.join ?_)))
    intro t ht
    simpa using ht
  obtain ⟨r3, m1, m2⟩ := h2.outcome hrun
  cases m1
  have hS : Spec.Searched 256 9 exTwin 0 r.vs := m2.settled fun e he => by
    have he : e ∈ r.lost ++ [] := he
    rw [List.append_nil, e4, List.mem_singleton] at he
    subst he
    exact e5
  exact ⟨r.vs, hS, back_partial 256 9 exTwin hg (by decide) 0 (by decide) (by decide +kernel) r.vs hS 2 (by decide) [0, 0] rfl⟩

end NW.BcAsync
