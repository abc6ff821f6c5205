import Verif.Lemmas.CcExp
import Verif.Lemmas.ListRes
import Verif.Props.Cc

/-! # Property C85: the experimental connected components made of `hook` and `compress` -/

namespace NW.CcExp
open Spec Forest

variable {α : Type}

/-- A parallel loop inside an algorithm: if every schedule of the loop ends well, and the rest then ends well, so does the whole. -/
theorem pool_then {B : Nat} {g t : Rows α} {Q R : List Nat → Prop} {todo : List Phase} {s : List Nat × List Task}
    (h : Sure (PoolStep B (lateCalls g t)) Q s)
    (hn : ∀ comp ts, Q comp → (∀ t ∈ ts, t.finished = true) → Sure (AStep B g t) R ⟨comp, ts, todo⟩) : Sure (AStep B g t) R ⟨s.1, s.2, todo⟩ := by
  induction h with
  | @mk s go safe fin next ih =>
    obtain ⟨comp, ts⟩ := s
    by_cases c : ∀ t ∈ ts, t.finished = true
    · exact hn comp ts (fin comp (.join c)) c
    · obtain ⟨i, x, h1, h2⟩ := has_running c
      have key : ∀ o, AStep B g t ⟨comp, ts, todo⟩ o → ∃ (i : Nat) (x : Task), ts[i]? = some x ∧ x.finished = false ∧
          o = ((taskStep B (lateCalls g t) comp x).map fun y => .inl ⟨y.1, ts.set i y.2, todo⟩) := by
        intro o ho
        cases ho with
        | task hi hf => exact ⟨_, _, hi, hf, rfl⟩
        | next hf _ => exact absurd hf c
        | done hf => exact absurd hf c
      refine .mk ⟨_, .task h1 h2⟩ ?_ ?_ ?_
      · intro f hf
        obtain ⟨j, y, k1, k2, k3⟩ := key _ hf
        have hp := PoolStep.task (B := B) (late := lateCalls g t) (comp := comp) k1 k2
        cases hs : taskStep B (lateCalls g t) comp y with
        | error e => rw [hs] at hp; exact safe e hp
        | ok z => rw [hs] at k3; cases k3
      · intro r hr
        obtain ⟨j, y, k1, k2, k3⟩ := key _ hr
        cases hs : taskStep B (lateCalls g t) comp y with
        | error e => rw [hs] at k3; cases k3
        | ok z => rw [hs] at k3; cases k3
      · intro s' hs'
        obtain ⟨j, y, k1, k2, k3⟩ := key _ hs'
        have hp := PoolStep.task (B := B) (late := lateCalls g t) (comp := comp) k1 k2
        cases hs : taskStep B (lateCalls g t) comp y with
        | error e => rw [hs] at k3; cases k3
        | ok z =>
          rw [hs] at k3 hp
          cases k3
          exact ih _ hp

/-- Starting the next loop. -/
theorem next_then {B : Nat} {g t : Rows α} {R : List Nat → Prop} {comp : List Nat} {ts : List Task} {p : Phase} {todo : List Phase}
    (hf : ∀ t ∈ ts, t.finished = true)
    (h : ∀ c, (c ∈ comp ∨ comp = [] ∧ c = 0) → ∃ ts', spawn g c p = .ok ts' ∧ Sure (AStep B g t) R ⟨comp, ts', todo⟩) :
    Sure (AStep B g t) R ⟨comp, ts, p :: todo⟩ := by
  have key : ∀ o, AStep B g t ⟨comp, ts, p :: todo⟩ o → ∃ c, (c ∈ comp ∨ comp = [] ∧ c = 0) ∧
      o = ((spawn g c p).map fun ts' => .inl ⟨comp, ts', todo⟩) := by
    intro o ho
    cases ho with
    | task hi hx => have := hf _ (List.mem_of_getElem? hi); rw [hx] at this; cases this
    | next _ hc => exact ⟨_, hc, rfl⟩
  obtain ⟨c, hc⟩ : ∃ c, c ∈ comp ∨ comp = [] ∧ c = 0 := by
    cases comp with
    | nil => exact ⟨0, Or.inr ⟨rfl, rfl⟩⟩
    | cons x _ => exact ⟨x, Or.inl (by simp)⟩
  refine .mk ⟨_, .next hf hc⟩ ?_ ?_ ?_
  · intro f ho
    obtain ⟨c, hc, k⟩ := key _ ho
    obtain ⟨ts', k1, -⟩ := h c hc
    rw [k1] at k; cases k
  · intro f ho
    obtain ⟨c, hc, k⟩ := key _ ho
    obtain ⟨ts', k1, -⟩ := h c hc
    rw [k1] at k; cases k
  · intro f ho
    obtain ⟨c, hc, k⟩ := key _ ho
    obtain ⟨ts', k1, k2⟩ := h c hc
    rw [k1] at k; cases k
    exact k2

theorem done_then {B : Nat} {g t : Rows α} {R : List Nat → Prop} {comp : List Nat} {ts : List Task} (hf : ∀ t ∈ ts, t.finished = true) (h : R comp) :
    Sure (AStep B g t) R ⟨comp, ts, []⟩ := by
  have key : ∀ o, AStep B g t ⟨comp, ts, []⟩ o → o = .ok (.inr comp) := by
    intro o ho
    cases ho with
    | task hi hx => have := hf _ (List.mem_of_getElem? hi); rw [hx] at this; cases this
    | done _ => rfl
  refine .mk ⟨_, .done hf⟩ (fun f ho => by cases key _ ho) (fun r ho => ?_) (fun s ho => by cases key _ ho)
  cases key _ ho
  exact h

/-- What is used of the two graphs. -/
structure GOk (g t : Rows α) : Prop where
  range : InRange g
  rowsT : t ≠ [] → t.length = g.length
  tedge : ∀ u v, Edge t u v → Edge g v u

theorem late_eq {g t : Rows α} (h : GOk g t) {u : Nat} (hu : u < g.length) :
    lateCalls g t u = .ok ((g.getD u []).map (fun e => (u, e.1)) ++ (t.getD u []).map fun e => (u, e.1)) := by
  unfold lateCalls
  rw [Cc.vget_getD hu, res_bind_ok]
  cases t with
  | nil => simp
  | cons r rs =>
    rw [if_pos (by simp), Cc.vget_getD (by rw [h.rowsT (by simp)]; exact hu), res_bind_ok]; rfl

theorem entry_ok {g : Rows α} (h : InRange g) {u : Nat} {e : Nat × α} (he : e ∈ g.getD u []) : LinkOk (Edge g) g.length (u, e.1) := by
  have hed : Edge g u e.1 := Cc.edge_iff_entry.2 ⟨e, he, rfl⟩
  exact ⟨hed.src_lt, h u e.1 hed, .of hed⟩

theorem late_ok {g t : Rows α} (h : GOk g t) : LateOk (Edge g) g.length ((g.map List.length).sum + (t.map List.length).sum) (lateCalls g t) := by
  intro u hu
  refine ⟨_, late_eq h hu, ?_, ?_⟩
  · have a := Cc.getD_length_le g u
    have b := Cc.getD_length_le t u
    rw [List.length_append, List.length_map, List.length_map]
    omega
  · intro e he
    rcases List.mem_append.1 he with he | he
    · obtain ⟨x, hx, rfl⟩ := List.mem_map.1 he
      exact entry_ok h.range hx
    · obtain ⟨x, hx, rfl⟩ := List.mem_map.1 he
      have hed : Edge g x.1 u := h.tedge _ _ (Cc.edge_iff_entry.2 ⟨x, hx, rfl⟩)
      exact ⟨hu, hed.src_lt, (Conn.of hed).symm⟩

/-- The trees do not lose vertices. -/
def Keeps (comp comp' : List Nat) : Prop := ∀ x y, root (par comp) x = root (par comp) y → root (par comp') x = root (par comp') y

/-- The loops that call `hook`. -/
theorem hooks_phase {B : Nat} {g t : Rows α} {R : List Nat → Prop} (hg : GOk g t) (hB : g.length ≤ B) {comp : List Nat} {todo : List Phase}
    (hb : Base (Edge g) g.length comp) {rows : Nat → List (Nat × α)} (hrows : ∀ u e, e ∈ rows u → e ∈ g.getD u [])
    (hn : ∀ comp' ts, Base (Edge g) g.length comp' → Keeps comp comp' → (∀ u, u < g.length → ∀ e ∈ rows u, root (par comp') u = root (par comp') e.1) →
      (∀ t ∈ ts, t.finished = true) → Sure (AStep B g t) R ⟨comp', ts, todo⟩) :
    Sure (AStep B g t) R ⟨comp, (List.range g.length).map (fun u => hooker ((rows u).map fun e => (u, e.1))), todo⟩ := by
  have hmem : ∀ x ∈ (List.range g.length).map (fun u => hooker ((rows u).map fun e => (u, e.1))), ∃ u, u < g.length ∧ x = hooker ((rows u).map fun e => (u, e.1)) := by
    intro x hx
    obtain ⟨u, hu, rfl⟩ := List.mem_map.1 hx
    exact ⟨u, by simpa using hu, rfl⟩
  have hfresh : ∀ t ∈ (List.range g.length).map (fun u => hooker ((rows u).map fun e => (u, e.1))), Fresh t := by
    intro x hx
    obtain ⟨u, -, rfl⟩ := hmem x hx
    exact Or.inl rfl
  have hci : CInv (Edge g) g.length False comp ((List.range g.length).map (fun u => hooker ((rows u).map fun e => (u, e.1)))) := by
    refine hb.start hfresh ?_ ?_ ?_ ?_ (fun f => f.elim) ?_
    · intro x hx e he
      obtain ⟨u, hu, rfl⟩ := hmem x hx
      obtain ⟨y, hy, rfl⟩ := List.mem_map.1 he
      exact entry_ok hg.range (hrows u y hy)
    · intro x hx u c hc
      obtain ⟨u, -, rfl⟩ := hmem x hx
      cases hc
    · intro x hx u vs hc
      obtain ⟨u, -, rfl⟩ := hmem x hx
      cases hc
    · intro x hx n hn
      obtain ⟨u, -, rfl⟩ := hmem x hx
      cases hn
    · intro i j x x' n hi _ hn _
      obtain ⟨u, -, rfl⟩ := hmem x (List.mem_of_getElem? hi)
      cases hn
  refine pool_then (s := (comp, _)) (pool_sure hB (late_ok hg) hci) ?_
  rintro comp' ts' ⟨ts, k1, k2⟩ hf
  obtain ⟨k3, -, -⟩ := k1.ended hfresh k2
  refine hn comp' ts' k1.inv.base k1.mono ?_ hf
  intro u hu e he
  exact k3 _ (List.mem_map.2 ⟨u, by simpa using hu, rfl⟩) (u, e.1) (List.mem_map.2 ⟨e, he, rfl⟩)

/-- The loop of `pull`. -/
theorem pull_phase {B : Nat} {g t : Rows α} {R : List Nat → Prop} (hg : GOk g t) (hB : g.length ≤ B) {comp : List Nat} {todo : List Phase}
    (hb : Base (Edge g) g.length comp)
    (hn : ∀ comp' ts, Base (Edge g) g.length comp' → Keeps comp comp' → (∀ t ∈ ts, t.finished = true) → Sure (AStep B g t) R ⟨comp', ts, todo⟩) :
    Sure (AStep B g t) R ⟨comp, (List.range g.length).map (fun u => (⟨.pull0 u ((g.getD u []).map Prod.fst), []⟩ : Task)), todo⟩ := by
  have hmem : ∀ x ∈ (List.range g.length).map (fun u => (⟨.pull0 u ((g.getD u []).map Prod.fst), []⟩ : Task)),
      ∃ u, u < g.length ∧ x = ⟨.pull0 u ((g.getD u []).map Prod.fst), []⟩ := by
    intro x hx
    obtain ⟨u, hu, rfl⟩ := List.mem_map.1 hx
    exact ⟨u, by simpa using hu, rfl⟩
  have hci : CInv (Edge g) g.length False comp ((List.range g.length).map (fun u => (⟨.pull0 u ((g.getD u []).map Prod.fst), []⟩ : Task))) := by
    refine hb.start ?_ ?_ ?_ ?_ ?_ (fun f => f.elim) ?_
    · intro x hx
      obtain ⟨u, -, rfl⟩ := hmem x hx
      exact Or.inr (Or.inr (Or.inr ⟨u, _, rfl⟩))
    · intro x hx e he
      obtain ⟨u, hu, rfl⟩ := hmem x hx
      cases he
    · intro x hx u c hc
      obtain ⟨u, -, rfl⟩ := hmem x hx
      cases hc
    · intro x hx u' vs hc
      obtain ⟨u, hu, rfl⟩ := hmem x hx
      cases hc
      refine ⟨hu, fun v hv => ?_⟩
      obtain ⟨e, he, rfl⟩ := List.mem_map.1 hv
      exact entry_ok hg.range he
    · intro x hx n hn
      obtain ⟨u, -, rfl⟩ := hmem x hx
      cases hn
    · intro i j x x' n hi _ hn _
      obtain ⟨u, -, rfl⟩ := hmem x (List.mem_of_getElem? hi)
      cases hn
  refine pool_then (s := (comp, _)) (pool_sure hB (late_ok hg) hci) ?_
  rintro comp' ts' ⟨ts, k1, k2⟩ hf
  exact hn comp' ts' k1.inv.base k1.mono hf

/-- The loop that skips the label `c`. -/
theorem finish_phase {B : Nat} {g t : Rows α} {R : List Nat → Prop} (hg : GOk g t) (hB : g.length ≤ B) {comp : List Nat} {todo : List Phase} {c : Nat}
    (hb : Base (Edge g) g.length comp)
    (hn : ∀ comp' ts, Base (Edge g) g.length comp' → Keeps comp comp' →
      (∀ u, u < g.length → root (par comp') u = root (par comp') c ∨
        (∀ v, Edge g u v → root (par comp') u = root (par comp') v) ∧ ∀ v, Edge t u v → root (par comp') u = root (par comp') v) →
      (∀ t ∈ ts, t.finished = true) → Sure (AStep B g t) R ⟨comp', ts, todo⟩) :
    Sure (AStep B g t) R ⟨comp, (List.range g.length).map (fun u => (⟨.gate u c, []⟩ : Task)), todo⟩ := by
  have hmem : ∀ x ∈ (List.range g.length).map (fun u => (⟨.gate u c, []⟩ : Task)), ∃ u, u < g.length ∧ x = ⟨.gate u c, []⟩ := by
    intro x hx
    obtain ⟨u, hu, rfl⟩ := List.mem_map.1 hx
    exact ⟨u, by simpa using hu, rfl⟩
  have hfresh : ∀ t ∈ (List.range g.length).map (fun u => (⟨.gate u c, []⟩ : Task)), Fresh t := by
    intro x hx
    obtain ⟨u, -, rfl⟩ := hmem x hx
    exact Or.inr (Or.inl ⟨u, c, rfl⟩)
  have hci : CInv (Edge g) g.length False comp ((List.range g.length).map (fun u => (⟨.gate u c, []⟩ : Task))) := by
    refine hb.start hfresh ?_ ?_ ?_ ?_ (fun f => f.elim) ?_
    · intro x hx e he
      obtain ⟨u, hu, rfl⟩ := hmem x hx
      cases he
    · intro x hx u' c' hc
      obtain ⟨u, hu, rfl⟩ := hmem x hx
      cases hc
      exact hu
    · intro x hx u' vs hc
      obtain ⟨u, hu, rfl⟩ := hmem x hx
      cases hc
    · intro x hx n hn
      obtain ⟨u, -, rfl⟩ := hmem x hx
      cases hn
    · intro i j x x' n hi _ hn _
      obtain ⟨u, -, rfl⟩ := hmem x (List.mem_of_getElem? hi)
      cases hn
  refine pool_then (s := (comp, _)) (pool_sure hB (late_ok hg) hci) ?_
  rintro comp' ts' ⟨ts, k1, k2⟩ hf
  obtain ⟨-, k3, -⟩ := k1.ended hfresh k2
  refine hn comp' ts' k1.inv.base k1.mono ?_ hf
  intro u hu
  rcases k3 ⟨.gate u c, []⟩ (List.mem_map.2 ⟨u, by simpa using hu, rfl⟩) u c rfl with m | ⟨r, m1, m2⟩
  · exact Or.inl m
  · rw [late_eq hg hu] at m1
    cases m1
    refine Or.inr ⟨fun v hv => ?_, fun v hv => ?_⟩
    · obtain ⟨e, he, rfl⟩ := Cc.edge_iff_entry.1 hv
      exact m2 (u, e.1) (List.mem_append.2 (Or.inl (List.mem_map.2 ⟨e, he, rfl⟩)))
    · obtain ⟨e, he, rfl⟩ := Cc.edge_iff_entry.1 hv
      exact m2 (u, e.1) (List.mem_append.2 (Or.inr (List.mem_map.2 ⟨e, he, rfl⟩)))

/-- `compress`. -/
theorem compress_phase {B : Nat} {g t : Rows α} {R : List Nat → Prop} (hg : GOk g t) (hB : g.length ≤ B) {comp : List Nat} {todo : List Phase}
    (hb : Base (Edge g) g.length comp)
    (hn : ∀ comp' ts, Base (Edge g) g.length comp' → Keeps comp comp' → (∀ n, n < g.length → par comp' (par comp' n) = par comp' n) →
      (∀ t ∈ ts, t.finished = true) → Sure (AStep B g t) R ⟨comp', ts, todo⟩) :
    Sure (AStep B g t) R ⟨comp, (List.range g.length).map compressor, todo⟩ := by
  have hfresh : ∀ t ∈ (List.range g.length).map compressor, Fresh t := by
    intro t ht
    obtain ⟨n, -, rfl⟩ := List.mem_map.1 ht
    exact Or.inr (Or.inr (Or.inl ⟨n, rfl⟩))
  have hci : CInv (Edge g) g.length True comp ((List.range g.length).map compressor) := by
    refine hb.start hfresh ?_ ?_ ?_ ?_ ?_ compressors_uniq
    · intro t ht e he
      obtain ⟨n, -, rfl⟩ := List.mem_map.1 ht
      cases he
    · intro t ht u c hc
      obtain ⟨n, -, rfl⟩ := List.mem_map.1 ht
      cases hc
    · intro t ht u c hc
      obtain ⟨n, -, rfl⟩ := List.mem_map.1 ht
      cases hc
    · intro t ht m hm
      obtain ⟨n, hn, rfl⟩ := List.mem_map.1 ht
      cases hm
      simpa using hn
    · intro _ t ht
      obtain ⟨n, -, rfl⟩ := List.mem_map.1 ht
      exact ⟨n, rfl⟩
  refine pool_then (s := (comp, _)) (pool_sure hB (late_ok hg) hci) ?_
  rintro comp' ts' ⟨ts, k1, k2⟩ hf
  obtain ⟨-, -, k5⟩ := k1.ended hfresh k2
  exact hn comp' ts' k1.inv.base k1.mono (fun n hn => k5 trivial (compressor n) (List.mem_map.2 ⟨n, by simpa using hn, rfl⟩) n rfl) hf

/-- The last `compress`. -/
theorem last_compress {B : Nat} {g t : Rows α} (hg : GOk g t) (hB : g.length ≤ B) {comp : List Nat} {ts : List Task} (hb : Base (Edge g) g.length comp)
    (hcl : ∀ a b, Edge g a b → root (par comp) a = root (par comp) b) (hf : ∀ t ∈ ts, t.finished = true) :
    Sure (AStep B g t) (fun comp => comp.length = g.length ∧ LeastLabels (Edge g) g.length comp ∧ ComponentLabels (Edge g) g.length comp) ⟨comp, ts, [.compress]⟩ := by
  refine next_then hf fun c _ => ⟨_, rfl, compress_phase hg hB hb fun comp' ts' h1 h2 h3 h4 => done_then h4 ?_⟩
  have := h1.least (fun a b hab => h2 _ _ (hcl a b hab)) h3
  exact ⟨h1.len, this, this.components⟩

theorem spawn_push {g : Rows α} (c : Nat) : spawn g c .push = .ok ((List.range g.length).map fun u => hooker ((g.getD u []).map fun e => (u, e.1))) := by
  refine mapM_ok_of_forall fun u hu => ?_
  unfold rowTask
  rw [Cc.vget_getD (by simpa using hu), res_bind_ok]; rfl

theorem spawn_link {g : Rows α} (b c : Nat) :
    spawn g c (.link b) = .ok ((List.range g.length).map fun u => hooker (((g.getD u []).take b).map fun e => (u, e.1))) := by
  refine mapM_ok_of_forall fun u hu => ?_
  unfold rowTask
  rw [Cc.vget_getD (by simpa using hu), res_bind_ok]; rfl

theorem spawn_pull {g : Rows α} (c : Nat) :
    spawn g c .pull = .ok ((List.range g.length).map fun u => ⟨.pull0 u ((g.getD u []).map Prod.fst), []⟩) := by
  refine mapM_ok_of_forall fun u hu => ?_
  unfold rowTask
  rw [Cc.vget_getD (by simpa using hu), res_bind_ok]; rfl

/-- A loop that hooks every edge, then `compress`. -/
theorem push_compress {B : Nat} {g t : Rows α} (hg : GOk g t) (hB : g.length ≤ B) {comp : List Nat} {ts : List Task} (hb : Base (Edge g) g.length comp)
    (hf : ∀ t ∈ ts, t.finished = true) :
    Sure (AStep B g t) (fun comp => comp.length = g.length ∧ LeastLabels (Edge g) g.length comp ∧ ComponentLabels (Edge g) g.length comp) ⟨comp, ts, [.push, .compress]⟩ := by
  refine next_then hf fun c _ => ⟨_, spawn_push c, hooks_phase hg hB hb (rows := fun u => g.getD u []) (fun _ _ h => h) fun comp' ts' h1 _ h3 h4 => ?_⟩
  refine last_compress hg hB h1 (fun a b hab => ?_) h4
  obtain ⟨e, he, rfl⟩ := Cc.edge_iff_entry.1 hab
  exact h3 a hab.src_lt e he

theorem gok_nil {g : Rows α} (hg : InRange g) : GOk g ([] : Rows α) :=
  ⟨hg, fun h => absurd rfl h, fun u v h => by simp [Edge, nbrs] at h⟩

/-- C85. `ccv1`: for every graph, directed or not, and every schedule, it ends without a fault and labels every vertex, and nothing else, with the least vertex of its (weakly)
connected component; so labels are equal exactly within components. -/
theorem ccv1_correct (g : Rows α) (B : Nat) (hg : InRange g) (hB : g.length ≤ B) :
    Sure (AStep B g []) (fun comp => comp.length = g.length ∧ LeastLabels (Edge g) g.length comp ∧ ComponentLabels (Edge g) g.length comp) (start g ccv1) :=
  push_compress (gok_nil hg) hB (base_init _ _) (by simp)

/-- C85. The same of `compute_connected_components_v2`. -/
theorem ccv2_correct (g : Rows α) (B : Nat) (hg : InRange g) (hB : g.length ≤ B) :
    Sure (AStep B g []) (fun comp => comp.length = g.length ∧ LeastLabels (Edge g) g.length comp ∧ ComponentLabels (Edge g) g.length comp) (start g ccv2) :=
  next_then (by simp) fun c _ => ⟨_, spawn_pull c, pull_phase (gok_nil hg) hB (base_init _ _) fun _ _ h1 _ h3 => push_compress (gok_nil hg) hB h1 h3⟩

/-- All edges are linked by the loop that skips a label, if every edge is also seen from its other end. -/
theorem finish_closed {g t : Rows α} {comp : List Nat} {c : Nat} (hcov : ∀ u v, Edge g u v → Edge t v u ∨ Edge g v u) (hin : InRange g)
    (h : ∀ u, u < g.length → root (par comp) u = root (par comp) c ∨
        (∀ v, Edge g u v → root (par comp) u = root (par comp) v) ∧ ∀ v, Edge t u v → root (par comp) u = root (par comp) v) :
    ∀ a b, Edge g a b → root (par comp) a = root (par comp) b := by
  intro a b hab
  rcases h a hab.src_lt with m | m
  · rcases h b (hin a b hab) with n | n
    · rw [m, n]
    · rcases hcov a b hab with k | k
      · exact (n.2 a k).symm
      · exact (n.1 a k).symm
  · exact m.1 b hab

/-- C85. The experimental `Afforest`: for every symmetric graph with an empty second graph, and every graph with its transpose, every neighbour bound, every
sampled label and every schedule, it ends without a fault and labels every vertex, and nothing else, with the least vertex of its component. -/
theorem afforest_correct (g t : Rows α) (bound B : Nat) (hg : InRange g) (hB : g.length ≤ B)
    (h : (t = [] ∧ ∀ u v, Edge g u v → Edge g v u) ∨ IsTranspose g t) :
    Sure (AStep B g t) (fun comp => comp.length = g.length ∧ LeastLabels (Edge g) g.length comp ∧ ComponentLabels (Edge g) g.length comp) (start g (afforest bound)) := by
  have hok : GOk g t := by
    rcases h with ⟨rfl, -⟩ | ⟨h1, h2⟩
    · exact gok_nil hg
    · exact ⟨hg, fun _ => h1, fun u v e => (h2 u v).1 e⟩
  have hcov : ∀ u v, Edge g u v → Edge t v u ∨ Edge g v u := by
    intro u v e
    rcases h with ⟨rfl, h2⟩ | ⟨-, h2⟩
    · exact Or.inr (h2 u v e)
    · exact Or.inl ((h2 v u).2 e)
  refine next_then (by simp) fun c _ => ⟨_, spawn_link bound c, hooks_phase hok hB (base_init _ _) (rows := fun u => (g.getD u []).take bound)
    (fun _ _ h => List.mem_of_mem_take h) fun _ _ h1 _ _ h4 => ?_⟩
  refine next_then h4 fun c _ => ⟨_, rfl, compress_phase hok hB h1 fun _ _ h1 _ _ h4 => ?_⟩
  refine next_then h4 fun c _ => ⟨_, rfl, finish_phase hok hB h1 fun _ _ h1 _ h3 h4 => ?_⟩
  exact last_compress hok hB h1 (finish_closed hcov hg h3) h4

/-- C85. `ccv5`: the same for every symmetric graph. -/
theorem ccv5_partial (g : Rows α) (B : Nat) (hg : InRange g) (hB : g.length ≤ B) (hs : ∀ u v, Edge g u v → Edge g v u) :
    Sure (AStep B g []) (fun comp => comp.length = g.length ∧ LeastLabels (Edge g) g.length comp ∧ ComponentLabels (Edge g) g.length comp) (start g ccv5) := by
  refine next_then (by simp) fun c _ => ⟨_, spawn_pull c, pull_phase (gok_nil hg) hB (base_init _ _) fun _ _ h1 _ h3 => ?_⟩
  refine next_then h3 fun c _ => ⟨_, rfl, finish_phase (gok_nil hg) hB h1 fun _ _ h1 _ h3 h4 => ?_⟩
  exact last_compress (gok_nil hg) hB h1 (finish_closed (fun u v e => Or.inr (hs u v e)) hg h3) h4

/-- One scheduler's choice: a task, the next loop with its sampled label, or the end. -/
inductive Move where
  | task (i : Nat)
  | next (c : Nat)
  | done

/-- Executes a choice. -/
def move (B : Nat) (g t : Rows α) (s : State) : Move → Option (Res (State ⊕ List Nat))
  | .task i => match s.tasks[i]? with
    | some x => if x.finished = true then none else some ((taskStep B (lateCalls g t) s.comp x).map fun y => .inl ⟨y.1, s.tasks.set i y.2, s.todo⟩)
    | none => none
  | .next c => match s.todo with
    | p :: todo => if (∀ t ∈ s.tasks, t.finished = true) ∧ (c ∈ s.comp ∨ s.comp = [] ∧ c = 0) then
        some ((spawn g c p).map fun ts' => .inl ⟨s.comp, ts', todo⟩) else none
    | [] => none
  | .done => match s.todo with
    | [] => if ∀ t ∈ s.tasks, t.finished = true then some (.ok (.inr s.comp)) else none
    | _ :: _ => none

theorem move_step {B : Nat} {g t : Rows α} {s : State} {m : Move} {o : Res (State ⊕ List Nat)} (h : move B g t s m = some o) : AStep B g t s o := by
  obtain ⟨comp, ts, todo⟩ := s
  unfold move at h
  split at h
  · split at h
    · rename_i hi
      split at h
      · cases h
      · rename_i hf
        cases h
        exact .task hi (by simpa using hf)
    · cases h
  · split at h
    · rename_i he
      simp only at he
      subst he
      split at h
      · rename_i hf
        cases h
        exact .next hf.1 hf.2
      · cases h
    · cases h
  · split at h
    · rename_i he
      simp only at he
      subst he
      split at h
      · rename_i hf
        cases h
        exact .done hf
      · cases h
    · cases h

/-- Executes choices to the end. -/
def moves (B : Nat) (g t : Rows α) : List Move → State → Option (Res (List Nat))
  | [], _ => none
  | m :: ms, s => match move B g t s m with
    | some (.ok (.inl s')) => moves B g t ms s'
    | some (.ok (.inr r)) => some (.ok r)
    | some (.error f) => some (.error f)
    | none => none

theorem moves_runs {B : Nat} {g t : Rows α} {ms : List Move} {s : State} {o : Res (List Nat)} (h : moves B g t ms s = some o) :
    Runs (AStep B g t) s o := by
  induction ms generalizing s with
  | nil => cases h
  | cons m ms ih =>
    unfold moves at h
    split at h
    · rename_i s' hm
      exact .step (move_step hm) (ih h)
    · rename_i r hm
      cases h
      exact .done (move_step hm)
    · rename_i f hm
      cases h
      exact .fault (move_step hm)
    · cases h

/-- The directed graph 0→1, 0→2. -/
def exFan : Rows Unit := [[(1, ()), (2, ())], [], []]

/-- C85. On a directed graph `ccv5` may return labels that separate the ends of an edge: when the label of vertex 0 is the sampled one, its edges are never
linked. -/
theorem ccv5_directed : ∃ (g : Rows Unit) (comp : List Nat), InRange g ∧ Runs (AStep (2 ^ 32) g []) (start g ccv5) (.ok comp) ∧
    ∃ u v x y, Edge g u v ∧ comp[u]? = some x ∧ comp[v]? = some y ∧ x ≠ y :=
  ⟨exFan, [0, 1, 2], by decide, moves_runs (ms := [.next 0, .task 0, .task 0, .task 0, .task 0, .task 0, .task 1, .task 1, .task 1, .task 2, .task 2, .task 2,
      .next 0, .task 0, .task 1, .task 2, .next 0, .task 0, .task 0, .task 0, .task 1, .task 1, .task 1, .task 2, .task 2, .task 2, .done]) (by decide),
    0, 1, 0, 1, by decide, rfl, rfl, by decide⟩

example : Sure (AStep (2 ^ 32) exFan []) (fun comp => comp.length = 3 ∧ LeastLabels (Edge exFan) 3 comp ∧ ComponentLabels (Edge exFan) 3 comp) (start exFan ccv1) :=
  ccv1_correct exFan (2 ^ 32) (by decide) (by decide)

example : Sure (AStep (2 ^ 32) exFan []) (fun comp => comp.length = 3 ∧ LeastLabels (Edge exFan) 3 comp ∧ ComponentLabels (Edge exFan) 3 comp) (start exFan ccv2) :=
  ccv2_correct exFan (2 ^ 32) (by decide) (by decide)

theorem exSym_symm : ∀ u v, Edge Cc.exSym u v → Edge Cc.exSym v u := fun u v h => by
  have hu := h.src_lt
  have : ∀ u < 6, ∀ v ∈ nbrs Cc.exSym u, Edge Cc.exSym v u := by decide
  exact this u hu v h

example : Sure (AStep (2 ^ 32) Cc.exSym []) (fun comp => comp.length = 6 ∧ LeastLabels (Edge Cc.exSym) 6 comp ∧ ComponentLabels (Edge Cc.exSym) 6 comp)
    (start Cc.exSym (afforest 1)) :=
  afforest_correct Cc.exSym [] 1 (2 ^ 32) (by decide) (by decide) (Or.inl ⟨rfl, exSym_symm⟩)

example : Sure (AStep (2 ^ 32) Cc.exDir Cc.exDirT) (fun comp => comp.length = 4 ∧ LeastLabels (Edge Cc.exDir) 4 comp ∧ ComponentLabels (Edge Cc.exDir) 4 comp)
    (start Cc.exDir (afforest 1)) :=
  afforest_correct Cc.exDir Cc.exDirT 1 (2 ^ 32) (by decide) (by decide) (Or.inr ((isTranspose_iff _ _ (by decide) (by decide)).2 (by decide)))

example : Sure (AStep (2 ^ 32) Cc.exSym []) (fun comp => comp.length = 6 ∧ LeastLabels (Edge Cc.exSym) 6 comp ∧ ComponentLabels (Edge Cc.exSym) 6 comp)
    (start Cc.exSym ccv5) :=
  ccv5_partial Cc.exSym (2 ^ 32) (by decide) (by decide) exSym_symm

end NW.CcExp
