import Verif.Lemmas.Cc
import Verif.Lemmas.ListRes

/-! # Properties C27 (concurrent linking) and C28 (afforest) -/

namespace NW.Cc
open Spec Forest

variable {α : Type}

/-- `a` carries the label `b`. -/
def Points (comp : List Nat) (a b : Nat) : Prop := comp[a]? = some b

/-- The pair `(a, b)` is linked by one of the threads. -/
def Linked (ts : List Task) (a b : Nat) : Prop := ∃ t ∈ ts, (a, b) ∈ t.rest

/-- The threads: each makes a list of `link` calls on vertices below `N`, or compresses one vertex below `N`; no vertex is compressed by two threads
at the same time (`compress` gives each vertex to one task). -/
structure Threads (N : Nat) (ts : List Task) : Prop where
  kind : ∀ t ∈ ts, (∃ l, t = linker l ∧ ∀ e ∈ l, e.1 < N ∧ e.2 < N) ∨ ∃ n, t = compressor n ∧ n < N
  once : ∀ (i j n : Nat), ts[i]? = some (compressor n) → ts[j]? = some (compressor n) → i = j

theorem Threads.start {N : Nat} {ts : List Task} (h : Threads N ts) : CInv (Linked ts) N False (List.range N) ts := by
  refine (base_init (Linked ts) N).start ?_ ?_ ?_ ?_ (fun f => f.elim) ?_
  · intro t ht
    rcases h.kind t ht with ⟨l, rfl, -⟩ | ⟨n, rfl, -⟩
    · exact Or.inl rfl
    · exact Or.inr (Or.inr ⟨n, rfl⟩)
  · intro t ht e he
    rcases h.kind t ht with ⟨l, rfl, k⟩ | ⟨n, rfl, -⟩
    · exact ⟨(k e he).1, (k e he).2, .of ⟨_, ht, he⟩⟩
    · cases he
  · intro t ht u c hc
    rcases h.kind t ht with ⟨l, rfl, k⟩ | ⟨n, rfl, -⟩ <;> cases hc
  · intro t ht m hm
    rcases h.kind t ht with ⟨l, rfl, k⟩ | ⟨n, rfl, hn⟩
    · cases hm
    · cases hm; exact hn
  · intro i j t t' n hi hj h1 h2
    have key : ∀ x ∈ ts, x.pc.owns = some n → x = compressor n := by
      intro x hx ho
      rcases h.kind x hx with ⟨l, rfl, k⟩ | ⟨m, rfl, hn⟩
      · cases ho
      · cases ho; rfl
    have a := key t (List.mem_of_getElem? hi) h1
    have b := key t' (List.mem_of_getElem? hj) h2
    subst a b
    exact h.once i j n hi hj

theorem noLate (E : Nat → Nat → Prop) (N : Nat) : LateOk E N 0 (fun _ => .ok []) := fun _ _ => ⟨[], rfl, Nat.le_refl _, by simp⟩

theorem conn_points {E : Nat → Nat → Prop} {N : Nat} {comp : List Nat} (h : Base E N comp) (x y : Nat) :
    Conn (Points comp) x y ↔ root (par comp) x = root (par comp) y := by
  refine conn_iff_root h.le ?_ ?_ x y
  · intro a b hab
    rw [par, List.getD_eq_getElem?_getD, hab]; rfl
  · intro x
    rcases Nat.lt_or_ge x N with c | c
    · left
      have := par_get h.len c
      rw [vget_eq_ok] at this; exact this
    · right
      rw [par, List.getD_eq_getElem?_getD, List.getElem?_eq_none (by rw [h.len]; exact c)]; rfl

theorem points_sound {E : Nat → Nat → Prop} {N : Nat} {comp : List Nat} (h : Base E N comp) {x y : Nat} (hc : Conn (Points comp) x y) : Conn E x y := by
  have := (conn_points h x y).1 hc
  exact (conn_root h.sound x).trans (this ▸ (conn_root h.sound y).symm)

/-- C27, at every moment.  Whatever the interleaving, in every state that can be reached labels only connect vertices that the linked pairs connect. -/
theorem link_never_merges_others (N B : Nat) (hB : N ≤ B) (ts : List Task) (h : Threads N ts) (comp : List Nat) (ts' : List Task)
    (hr : Steps (PoolStep B (fun _ => .ok [])) (List.range N, ts) (comp, ts')) {x y : Nat} (hc : Conn (Points comp) x y) : Conn (Linked ts) x y := by
  have hinv := Steps.inv (fun s => PInv (Linked ts) N False (fun _ => .ok []) (List.range N) ts s.1 s.2) ?_ (PInv.init h.start) hr
  · exact points_sound hinv.inv.base hc
  · rintro ⟨c, t⟩ ⟨c', t'⟩ hs hst
    generalize ho : (Except.ok (Sum.inl (c', t')) : Res ((List Nat × List Task) ⊕ List Nat)) = o at hst
    cases hst with
    | task hi hf =>
      obtain ⟨comp', t'', k1, k2, -⟩ := PInv.step hB (noLate _ N) hs hi hf
      rw [k1] at ho
      cases ho
      exact k2
    | join hf => cases ho

/-- Compressing all vertices when nothing else runs: every schedule ends, and labels every vertex with the least vertex of its tree. -/
theorem compress_all {E : Nat → Nat → Prop} {N B : Nat} (hB : N ≤ B) {comp : List Nat} (h : Base E N comp)
    (hE : ∀ a b, E a b → root (par comp) a = root (par comp) b) :
    Sure (PoolStep B (fun _ => .ok [])) (LeastLabels E N) (comp, (List.range N).map compressor) := by
  have hfresh : ∀ t ∈ (List.range N).map compressor, Fresh t := by
    intro t ht
    obtain ⟨n, -, rfl⟩ := List.mem_map.1 ht
    exact Or.inr (Or.inr ⟨n, rfl⟩)
  have hci : CInv E N True comp ((List.range N).map compressor) := by
    refine h.start hfresh ?_ ?_ ?_ ?_ compressors_uniq
    · intro t ht e he
      obtain ⟨n, -, rfl⟩ := List.mem_map.1 ht
      cases he
    · intro t ht u c hc
      obtain ⟨n, -, rfl⟩ := List.mem_map.1 ht
      cases hc
    · intro t ht m hm
      obtain ⟨n, hn, rfl⟩ := List.mem_map.1 ht
      cases hm
      simpa using hn
    · intro _ t ht
      obtain ⟨n, -, rfl⟩ := List.mem_map.1 ht
      exact ⟨n, rfl⟩
  refine (pool_sure hB (noLate E N) hci).mono ?_
  rintro c ⟨ts', k1, k2⟩
  obtain ⟨-, -, k5⟩ := k1.ended hfresh k2
  refine k1.inv.base.least (fun a b hab => k1.mono _ _ (hE a b hab)) fun n hn => ?_
  exact k5 trivial (compressor n) (List.mem_map.2 ⟨n, by simpa using hn, rfl⟩) n rfl

/-- C27, once all calls have returned.  For any number of threads making any `link` calls and compressing any vertices, starting from singletons, every
interleaving ends without a fault; then labels connect two vertices exactly when the linked pairs do, and a `compress` of all vertices, again under every
interleaving, ends and labels every vertex with the least vertex of its component. -/
theorem link_compress_correct (N B : Nat) (hB : N ≤ B) (ts : List Task) (h : Threads N ts) :
    Sure (PoolStep B (fun _ => .ok []))
      (fun comp => (∀ x y, Conn (Points comp) x y ↔ Conn (Linked ts) x y) ∧
        Sure (PoolStep B (fun _ => .ok [])) (fun comp' => LeastLabels (Linked ts) N comp' ∧ ComponentLabels (Linked ts) N comp')
          (comp, (List.range N).map compressor))
      (List.range N, ts) := by
  refine (pool_sure hB (noLate _ N) h.start).mono ?_
  rintro comp ⟨ts', h1, h2⟩
  have hfresh : ∀ t ∈ ts, Fresh t := by
    intro t ht
    rcases h.kind t ht with ⟨l, rfl, -⟩ | ⟨n, rfl, -⟩
    · exact Or.inl rfl
    · exact Or.inr (Or.inr ⟨n, rfl⟩)
  obtain ⟨k1, -, -⟩ := h1.ended hfresh h2
  have hE : ∀ a b, Linked ts a b → root (par comp) a = root (par comp) b := by
    rintro a b ⟨t, ht, he⟩
    exact k1 t ht (a, b) he
  refine ⟨fun x y => ⟨fun hc => points_sound h1.inv.base hc, fun hc => ?_⟩, (compress_all hB h1.inv.base hE).mono fun r hr => ⟨hr, hr.components⟩⟩
  exact (conn_points h1.inv.base x y).2 (hc.const _ hE)

/-! ## afforest -/

/-- Stages of `afforest`: before round `k` (or, with `k = rounds`, before the last loop), before the compress of round `k`, before the last compress, at
the end. -/
inductive Stage where
  | loop (k : Nat)
  | comp (k : Nat)
  | last
  | fin

def Stage.todo (rounds : Nat) : Stage → List Phase
  | .loop k => (List.range' k (rounds - k)).flatMap (fun r => [.links r, .compress]) ++ [.finish, .compress]
  | .comp k => .compress :: ((List.range' (k + 1) (rounds - (k + 1))).flatMap (fun r => [.links r, .compress]) ++ [.finish, .compress])
  | .last => [.compress]
  | .fin => []

/-- The first `k` neighbours of all vertices have been linked. -/
def Rounds (g : Rows α) (k : Nat) (comp : List Nat) : Prop :=
  ∀ (u r : Nat) (e : Nat × α), (g.getD u [])[r]? = some e → r < k → root (par comp) u = root (par comp) e.1

/-- All edges have been linked. -/
def Closed (E : Nat → Nat → Prop) (comp : List Nat) : Prop := ∀ a b, E a b → root (par comp) a = root (par comp) b

def Stage.Ready (g : Rows α) (E : Nat → Nat → Prop) (N rounds : Nat) : Stage → List Nat → Prop
  | .loop k, labels => k ≤ rounds ∧ Base E N labels ∧ Rounds g k labels
  | .comp k, labels => k < rounds ∧ Base E N labels ∧ Rounds g (k + 1) labels
  | .last, labels => Base E N labels ∧ Closed E labels
  | .fin, labels => LeastLabels E N labels

def AInv (g : Rows α) (E : Nat → Nat → Prop) (N rounds : Nat) (late : Nat → Res (List (Nat × Nat))) (s : State) : Prop :=
  ∃ (stage : Stage) (q : Prop) (comp0 : List Nat) (ts0 : List Task), s.todo = stage.todo rounds ∧ PInv E N q late comp0 ts0 s.comp s.tasks ∧
    ∀ comp' ts', PInv E N q late comp0 ts0 comp' ts' → (∀ t ∈ ts', t.finished = true) → stage.Ready g E N rounds comp'

/-- What is used of the two graphs. -/
structure GOk (g t : Rows α) (E : Nat → Nat → Prop) (N : Nat) : Prop where
  rows : g.length = N
  rowsT : t ≠ [] → t.length = N
  edge : ∀ u v, E u v ↔ Edge g u v
  range : ∀ u v, Edge g u v → u < N ∧ v < N
  tedge : ∀ u v, Edge t u v → Edge g v u
  covered : ∀ u v, Edge g u v → Edge t v u ∨ (t = [] ∧ Edge g v u)

theorem edge_iff_entry {g : Rows α} {u v : Nat} : Edge g u v ↔ ∃ e ∈ g.getD u [], e.1 = v := by
  unfold Edge nbrs
  rw [List.mem_map]

theorem length_le_sum {l : List (List (Nat × α))} {x : List (Nat × α)} (h : x ∈ l) : x.length ≤ (l.map List.length).sum := by
  induction l with
  | nil => cases h
  | cons y ys ih =>
    simp only [List.map_cons, List.sum_cons]
    rcases List.mem_cons.1 h with rfl | h
    · omega
    · have := ih h; omega

theorem getD_length_le (l : List (List (Nat × α))) (u : Nat) : (l.getD u []).length ≤ (l.map List.length).sum := by
  rw [List.getD_eq_getElem?_getD]
  rcases Nat.lt_or_ge u l.length with c | c
  · rw [List.getElem?_eq_getElem c]; exact length_le_sum (List.getElem_mem c)
  · rw [List.getElem?_eq_none c]; exact Nat.zero_le _

theorem vget_getD {l : Rows α} {u : Nat} (h : u < l.length) : vget l u = .ok (l.getD u []) := by
  rw [vget_of_lt h, List.getD_eq_getElem?_getD, List.getElem?_eq_getElem h]; rfl

/-- The late links of `u`. -/
theorem late_eq {g t : Rows α} {E : Nat → Nat → Prop} {N : Nat} (h : GOk g t E N) (rounds : Nat) {u : Nat} (hu : u < N) :
    lateLinks g t rounds u = .ok (((g.getD u []).drop rounds).map (fun e => (u, e.1)) ++ (t.getD u []).map fun e => (u, e.1)) := by
  unfold lateLinks
  rw [vget_getD (by rw [h.rows]; exact hu), res_bind_ok]
  cases t with
  | nil => simp
  | cons r rs =>
    rw [if_pos (by simp), vget_getD (by rw [h.rowsT (by simp)]; exact hu), res_bind_ok]; rfl

theorem late_ok {g t : Rows α} {E : Nat → Nat → Prop} {N : Nat} (h : GOk g t E N) (rounds : Nat) :
    LateOk E N ((g.map List.length).sum + (t.map List.length).sum) (lateLinks g t rounds) := by
  intro u hu
  refine ⟨_, late_eq h rounds hu, ?_, ?_⟩
  · have a := getD_length_le g u
    have b := getD_length_le t u
    rw [List.length_append, List.length_map, List.length_map, List.length_drop]
    omega
  · intro e he
    rcases List.mem_append.1 he with he | he
    · obtain ⟨x, hx, rfl⟩ := List.mem_map.1 he
      have hed : Edge g u x.1 := edge_iff_entry.2 ⟨x, List.mem_of_mem_drop hx, rfl⟩
      exact ⟨hu, (h.range _ _ hed).2, .of ((h.edge _ _).2 hed)⟩
    · obtain ⟨x, hx, rfl⟩ := List.mem_map.1 he
      have hed : Edge g x.1 u := h.tedge _ _ (edge_iff_entry.2 ⟨x, hx, rfl⟩)
      exact ⟨hu, (h.range _ _ hed).1, (Conn.of ((h.edge _ _).2 hed)).symm⟩

/-- The calls of a round. -/
def roundCall (g : Rows α) (r u : Nat) : List (Nat × Nat) := ((g.getD u [])[r]?.map fun e => (u, e.1)).toList

theorem round_spawn {g t : Rows α} {E : Nat → Nat → Prop} {N : Nat} (h : GOk g t E N) (r : Nat) :
    (List.range N).mapM (roundTask g r) = .ok ((List.range N).map fun u => linker (roundCall g r u)) := by
  refine mapM_ok_of_forall fun u hu => ?_
  have hu : u < N := by simpa using hu
  unfold roundTask roundCall
  rw [vget_getD (by rw [h.rows]; exact hu), res_bind_ok]
  split
  · next c => rw [List.getElem?_eq_getElem c]; rfl
  · next c => rw [List.getElem?_eq_none (by omega)]; rfl

theorem ready_mono {comp comp' : List Nat} {g : Rows α} {k : Nat}
    (hm : ∀ x y, root (par comp) x = root (par comp) y → root (par comp') x = root (par comp') y) (h : Rounds g k comp) : Rounds g k comp' :=
  fun u r e he hr => hm _ _ (h u r e he hr)

theorem todo_loop_lt {rounds k : Nat} (h : k < rounds) : (Stage.loop k).todo rounds = .links k :: (Stage.comp k).todo rounds := by
  simp only [Stage.todo]
  rw [show rounds - k = (rounds - (k + 1)) + 1 by omega, List.range'_succ]
  rfl

theorem todo_loop_eq (rounds : Nat) : (Stage.loop rounds).todo rounds = .finish :: Stage.last.todo rounds := by
  simp [Stage.todo]

theorem todo_comp (rounds k : Nat) : (Stage.comp k).todo rounds = .compress :: (Stage.loop (k + 1)).todo rounds := rfl

theorem todo_last (rounds : Nat) : (Stage.last).todo rounds = .compress :: Stage.fin.todo rounds := rfl

/-- The next loop can start. -/
theorem next_ok {g t : Rows α} {E : Nat → Nat → Prop} {N rounds : Nat} (hg : GOk g t E N) {stage : Stage} {comp : List Nat} {p : Phase}
    {todo : List Phase} (htodo : p :: todo = stage.todo rounds) (hr : stage.Ready g E N rounds comp) (c : Nat) :
    ∃ ts, spawn g comp.length c p = .ok ts ∧ AInv g E N rounds (lateLinks g t rounds) ⟨comp, ts, todo⟩ := by
  -- a compress
  have hcomp : Base E N comp → ∀ next : Stage, p = .compress → todo = next.todo rounds →
      (∀ comp', Base E N comp' → (∀ x y, root (par comp) x = root (par comp) y → root (par comp') x = root (par comp') y) →
        (∀ n, n < N → par comp' (par comp' n) = par comp' n) → next.Ready g E N rounds comp') →
      ∃ ts, spawn g comp.length c p = .ok ts ∧ AInv g E N rounds (lateLinks g t rounds) ⟨comp, ts, todo⟩ := by
    rintro hb next rfl ht hn
    have hfresh : ∀ t ∈ (List.range N).map compressor, Fresh t := by
      intro t ht
      obtain ⟨n, -, rfl⟩ := List.mem_map.1 ht
      exact Or.inr (Or.inr ⟨n, rfl⟩)
    have hci : CInv E N True comp ((List.range N).map compressor) := by
      refine hb.start hfresh ?_ ?_ ?_ ?_ compressors_uniq
      · intro t ht e he
        obtain ⟨n, -, rfl⟩ := List.mem_map.1 ht
        cases he
      · intro t ht u c hc
        obtain ⟨n, -, rfl⟩ := List.mem_map.1 ht
        cases hc
      · intro t ht m hm
        obtain ⟨n, hn, rfl⟩ := List.mem_map.1 ht
        cases hm
        simpa using hn
      · intro _ t ht
        obtain ⟨n, -, rfl⟩ := List.mem_map.1 ht
        exact ⟨n, rfl⟩
    refine ⟨(List.range N).map compressor, by simp only [spawn, hb.len]; rfl, next, True, comp, _, ht, PInv.init hci, ?_⟩
    intro comp' ts' k1 k2
    obtain ⟨-, -, k5⟩ := k1.ended hfresh k2
    exact hn comp' k1.inv.base k1.mono fun n hn => k5 trivial (compressor n) (List.mem_map.2 ⟨n, by simpa using hn, rfl⟩) n rfl
  cases stage with
  | fin => cases htodo
  | last =>
    obtain ⟨hb, hcl⟩ := hr
    cases htodo
    exact hcomp hb .fin rfl rfl fun comp' hb' hm hfix => hb'.least (fun a b hab => hm _ _ (hcl a b hab)) hfix
  | comp k =>
    obtain ⟨hk, hb, hro⟩ := hr
    cases htodo
    exact hcomp hb (.loop (k + 1)) rfl rfl fun comp' hb' hm _ => ⟨hk, hb', ready_mono hm hro⟩
  | loop k =>
    obtain ⟨hk, hb, hro⟩ := hr
    rcases Nat.lt_or_ge k rounds with ck | ck
    · rw [todo_loop_lt ck] at htodo
      cases htodo
      have hmem : ∀ x ∈ (List.range N).map (fun u => linker (roundCall g k u)), ∃ u, u < N ∧ x = linker (roundCall g k u) := by
        intro x hx
        obtain ⟨u, hu, rfl⟩ := List.mem_map.1 hx
        exact ⟨u, by simpa using hu, rfl⟩
      have hfresh : ∀ t ∈ (List.range N).map (fun u => linker (roundCall g k u)), Fresh t := by
        intro x hx
        obtain ⟨u, -, rfl⟩ := hmem x hx
        exact Or.inl rfl
      refine ⟨(List.range N).map fun u => linker (roundCall g k u), by simp only [spawn, hb.len]; exact round_spawn hg k, .comp k, False, comp, _, rfl,
        PInv.init (hb.start hfresh ?_ ?_ ?_ (fun f => f.elim) ?_), ?_⟩
      · intro x hx e he
        obtain ⟨u, hu, rfl⟩ := hmem x hx
        simp only [linker, roundCall, Option.mem_toList, Option.map_eq_some_iff] at he
        obtain ⟨y, hy, rfl⟩ := he
        have hed : Edge g u y.1 := edge_iff_entry.2 ⟨y, List.mem_of_getElem? hy, rfl⟩
        exact ⟨hu, (hg.range _ _ hed).2, .of ((hg.edge _ _).2 hed)⟩
      · intro x hx u c hc
        obtain ⟨u, -, rfl⟩ := hmem x hx
        cases hc
      · intro x hx n hn
        obtain ⟨u, -, rfl⟩ := hmem x hx
        cases hn
      · intro i j x x' n hi _ hn _
        obtain ⟨u, -, rfl⟩ := hmem x (List.mem_of_getElem? hi)
        cases hn
      · intro comp' ts' k1 k2
        obtain ⟨k3, -, -⟩ := k1.ended hfresh k2
        refine ⟨ck, k1.inv.base, fun u r e he hr => ?_⟩
        by_cases hrk : r < k
        · exact k1.mono _ _ (hro u r e he hrk)
        · have : r = k := by omega
          subst this
          have hed : Edge g u e.1 := edge_iff_entry.2 ⟨e, List.mem_of_getElem? he, rfl⟩
          refine k3 (linker (roundCall g r u)) (List.mem_map.2 ⟨u, by simpa using (hg.range _ _ hed).1, rfl⟩) (u, e.1) ?_
          simp only [linker, roundCall, he]; exact List.mem_singleton.2 rfl
    · have : k = rounds := by omega
      subst this
      rw [todo_loop_eq] at htodo
      cases htodo
      have hmem : ∀ x ∈ (List.range N).map (fun u => (⟨.gate u c, []⟩ : Task)), ∃ u, u < N ∧ x = ⟨.gate u c, []⟩ := by
        intro x hx
        obtain ⟨u, hu, rfl⟩ := List.mem_map.1 hx
        exact ⟨u, by simpa using hu, rfl⟩
      have hfresh : ∀ t ∈ (List.range N).map (fun u => (⟨.gate u c, []⟩ : Task)), Fresh t := by
        intro x hx
        obtain ⟨u, -, rfl⟩ := hmem x hx
        exact Or.inr (Or.inl ⟨u, c, rfl⟩)
      refine ⟨(List.range N).map fun u => ⟨.gate u c, []⟩, by simp only [spawn, hb.len]; rfl, .last, False, comp, _, rfl,
        PInv.init (hb.start hfresh ?_ ?_ ?_ (fun f => f.elim) ?_), ?_⟩
      · intro x hx e he
        obtain ⟨u, -, rfl⟩ := hmem x hx
        cases he
      · intro x hx u' c' hc
        obtain ⟨u, hu, rfl⟩ := hmem x hx
        cases hc
        exact hu
      · intro x hx n hn
        obtain ⟨u, -, rfl⟩ := hmem x hx
        cases hn
      · intro i j x x' n hi _ hn _
        obtain ⟨u, -, rfl⟩ := hmem x (List.mem_of_getElem? hi)
        cases hn
      · intro comp' ts' k1 k2
        obtain ⟨-, k3, -⟩ := k1.ended hfresh k2
        -- each vertex either has the skipped label or has made its calls
        have hv : ∀ u, u < N → root (par comp') u = root (par comp') c ∨
            ∀ e ∈ ((g.getD u []).drop k).map (fun e => (u, e.1)) ++ (t.getD u []).map (fun e => (u, e.1)), root (par comp') e.1 = root (par comp') e.2 := by
          intro u hu
          rcases k3 ⟨.gate u c, []⟩ (List.mem_map.2 ⟨u, by simpa using hu, rfl⟩) u c rfl with m | ⟨r, m1, m2⟩
          · exact Or.inl m
          · rw [late_eq hg k hu] at m1
            cases m1
            exact Or.inr m2
        have hro' := ready_mono k1.mono hro
        -- an edge seen from its first end
        have hedge : ∀ u v, Edge g u v → root (par comp') u = root (par comp') c ∨ root (par comp') u = root (par comp') v := by
          intro u v huv
          obtain ⟨e, he, rfl⟩ := edge_iff_entry.1 huv
          obtain ⟨r, hr⟩ := List.getElem?_of_mem he
          by_cases hrk : r < k
          · exact Or.inr (hro' u r e hr hrk)
          · rcases hv u (hg.range _ _ huv).1 with m | m
            · exact Or.inl m
            · right
              refine m (u, e.1) (List.mem_append.2 (Or.inl (List.mem_map.2 ⟨e, ?_, rfl⟩)))
              rw [List.mem_iff_getElem?]
              exact ⟨r - k, by rw [List.getElem?_drop, show k + (r - k) = r by omega]; exact hr⟩
        refine ⟨k1.inv.base, fun a b hab => ?_⟩
        have hab := (hg.edge _ _).1 hab
        rcases hedge a b hab with m | m
        · rcases hg.covered a b hab with hc | ⟨-, hc⟩
          · rcases hv b (hg.range _ _ hab).2 with n | n
            · rw [m, n]
            · obtain ⟨e, he, he'⟩ := edge_iff_entry.1 hc
              have := n (b, e.1) (List.mem_append.2 (Or.inr (List.mem_map.2 ⟨e, he, rfl⟩)))
              rw [he'] at this
              exact this.symm
          · rcases hedge b a hc with n | n
            · rw [m, n]
            · exact n.symm
        · exact m

theorem afforest_sure {g t : Rows α} {E : Nat → Nat → Prop} {N B rounds : Nat} (hB : N ≤ B) (hN : 0 < N) (hg : GOk g t E N) :
    Sure (AStep B g t rounds) (fun comp => comp.length = N ∧ LeastLabels E N comp) ⟨List.range N, [], phases rounds⟩ := by
  refine Sure.of_inv (Prod.lex Nat.lt_wfRel Nat.lt_wfRel).wf
    (fun s => (s.todo.length, (s.tasks.map (tmu N ((g.map List.length).sum + (t.map List.length).sum) (par s.comp))).sum))
    (AInv g E N rounds (lateLinks g t rounds)) ?_ ?_ _ ?_
  · rintro ⟨comp, ts, todo⟩ ⟨stage, q, comp0, ts0, h1, h2, h3⟩
    by_cases c : ∀ t ∈ ts, t.finished = true
    · cases todo with
      | nil => exact ⟨_, .done c⟩
      | cons p todo =>
        have hlen : comp.length = N := h2.inv.len
        exact ⟨_, .next (c := comp[0]'(by omega)) c (List.getElem_mem _)⟩
    · obtain ⟨i, x, k1, k2⟩ := has_running c
      exact ⟨_, .task k1 k2⟩
  · rintro ⟨comp, ts, todo⟩ o ⟨stage, q, comp0, ts0, h1, h2, h3⟩ hst
    cases hst with
    | task hi hf =>
      obtain ⟨comp', t', k1, k2, k3⟩ := PInv.step hB (late_ok hg rounds) h2 hi hf
      refine Or.inl ⟨⟨comp', ts.set _ t', todo⟩, by rw [k1]; rfl, ⟨stage, q, comp0, ts0, h1, k2, h3⟩, Prod.Lex.right _ k3⟩
    | @next _ _ p todo c hf _ =>
      obtain ⟨ts', k1, k2⟩ := next_ok hg h1 (h3 comp ts h2 hf) c
      refine Or.inl ⟨_, by rw [k1]; rfl, k2, Prod.Lex.left _ _ (Nat.lt_succ_self _)⟩
    | done hf =>
      refine Or.inr ⟨_, rfl, ?_⟩
      have hr := h3 comp ts h2 hf
      cases stage with
      | fin => exact ⟨h2.inv.len, hr⟩
      | loop k => simp [Stage.todo] at h1
      | _ => cases h1
  · have hb := base_init E N
    refine ⟨.loop 0, False, List.range N, [], ?_, PInv.init (hb.start (by simp) (by simp) (by simp) (by simp) (fun f => f.elim) (by simp)), ?_⟩
    · simp only [phases, Stage.todo, Nat.sub_zero, List.range_eq_range']
    · intro comp' ts' k1 _
      exact ⟨Nat.zero_le _, k1.inv.base, fun _ _ _ _ h => absurd h (Nat.not_lt_zero _)⟩

theorem getD_append_nil (g : Rows α) (u : Nat) : (g ++ [[]]).getD u [] = g.getD u [] := by
  simp only [List.getD_eq_getElem?_getD]
  rcases Nat.lt_or_ge u g.length with c | c
  · rw [List.getElem?_append_left c]
  · rw [List.getElem?_append_right c, List.getElem?_eq_none c]
    rcases Nat.eq_zero_or_pos (u - g.length) with d | d
    · rw [d]; rfl
    · rw [List.getElem?_eq_none (by simp; omega)]

theorem edge_append_nil (g : Rows α) (u v : Nat) : Edge (g ++ [[]]) u v ↔ Edge g u v := by
  unfold Edge nbrs; rw [getD_append_nil]

/-- C28, positive part.  Let the rows one past the end of the graphs, which the code reads, happen to be empty (`++ [[]]`).  Then for every symmetric
graph with an empty second graph, and for every graph with its transpose, every number of neighbour rounds, every sampled label and every schedule,
`afforest` ends without a fault and labels every vertex with the least vertex of its component; so labels are equal exactly within components.
It returns one label more than there are vertices, and nothing else carries that one.
Missing from the full statement: the extra rows do not exist (`afforest_outOfBounds`). -/
theorem afforest_partial (g t t' : Rows α) (B rounds : Nat) (hg : InRange g) (hB : g.length < B)
    (h : (t' = [] ∧ ∀ u v, Edge g u v → Edge g v u) ∨ (t' = t ++ [[]] ∧ IsTranspose g t)) :
    Sure (AStep B (g ++ [[]]) t' rounds) (fun comp => comp.length = g.length + 1 ∧ comp[g.length]? = some g.length ∧
      LeastLabels (Edge g) g.length comp ∧ ComponentLabels (Edge g) g.length comp) (start g.length rounds) := by
  have hok : GOk (g ++ [[]]) t' (Edge g) (g.length + 1) := by
    refine ⟨by simp, ?_, fun u v => (edge_append_nil g u v).symm, ?_, ?_, ?_⟩
    · intro hne
      rcases h with ⟨rfl, -⟩ | ⟨rfl, h1, -⟩
      · exact absurd rfl hne
      · simp [h1]
    · intro u v he
      rw [edge_append_nil] at he
      have := he.src_lt
      have := hg u v he
      omega
    · intro u v he
      rw [edge_append_nil]
      rcases h with ⟨rfl, -⟩ | ⟨rfl, -, h2⟩
      · simp [Edge, nbrs] at he
      · rw [edge_append_nil] at he
        exact (h2 u v).1 he
    · intro u v he
      rw [edge_append_nil] at he
      rcases h with ⟨rfl, h2⟩ | ⟨rfl, -, h2⟩
      · exact Or.inr ⟨rfl, (edge_append_nil g v u).2 (h2 u v he)⟩
      · exact Or.inl ((edge_append_nil t v u).2 ((h2 v u).2 he))
  refine (afforest_sure (B := B) (by omega) (Nat.succ_pos _) hok).mono fun comp ⟨hl, hc⟩ => ?_
  have : LeastLabels (Edge g) g.length comp := fun x hx => hc x (by omega)
  refine ⟨hl, ?_, this, this.components⟩
  obtain ⟨l, h1, h2, -⟩ := hc g.length (by omega)
  have := h2.const (fun x => decide (x = g.length)) fun a b hab => by
    have := hab.src_lt
    have := hg a b hab
    rw [decide_eq_false (by omega), decide_eq_false (by omega)]
  simp at this
  rw [h1, this]

/-- C28, negative part.  With at least one neighbour round (the default is two), every run of `afforest`, on every graph, reads row `size()` of the graph,
which does not exist. -/
theorem afforest_outOfBounds (g t : Rows α) (B rounds : Nat) (hr : 0 < rounds) :
    (∀ o, Runs (AStep B g t rounds) (start g.length rounds) o → o = .error .outOfBounds) ∧
      Runs (AStep B g t rounds) (start g.length rounds) (.error .outOfBounds) := by
  have hph : phases rounds = .links 0 :: (Stage.comp 0).todo rounds := by
    rw [← todo_loop_lt hr]
    simp only [phases, Stage.todo, Nat.sub_zero, List.range_eq_range']
  have hsp : ∀ c, spawn g (List.range (g.length + 1)).length c (.links 0) = .error .outOfBounds := by
    intro c
    simp only [spawn, List.length_range]
    rw [List.range_succ, List.mapM_append, mapM_ok_of_forall (g := fun u => linker (roundCall g 0 u)), res_bind_ok]
    · have : roundTask g 0 g.length = .error .outOfBounds := by
        unfold roundTask vget
        rw [List.getElem?_eq_none (Nat.le_refl _)]; rfl
      rw [List.mapM_cons, this]; rfl
    · intro u hu
      have hu : u < g.length := by simpa using hu
      unfold roundTask roundCall
      rw [vget_getD hu, res_bind_ok]
      split
      · next c => rw [List.getElem?_eq_getElem c]; rfl
      · next c => rw [List.getElem?_eq_none (by omega)]; rfl
  have key : ∀ o, AStep B g t rounds (start g.length rounds) o → o = .error .outOfBounds := by
    intro o ho
    unfold start at ho
    rw [hph] at ho
    cases ho with
    | task hi _ => simp at hi
    | next hf hc => rw [hsp]; rfl
  constructor
  · intro o ho
    cases ho with
    | done hs => cases key _ hs
    | fault hs => cases key _ hs; rfl
    | step hs _ => cases key _ hs
  · refine .fault ?_
    have := AStep.next (B := B) (g := g) (t := t) (rounds := rounds) (comp := List.range (g.length + 1)) (ts := []) (p := .links 0)
      (todo := (Stage.comp 0).todo rounds) (c := 0) (by simp) (by simp)
    rw [hsp] at this
    unfold start
    rw [hph]
    exact this

/-! ## The hypotheses can be met -/

/-- Two threads linking 0-3 and 3-1, 2-4, and a thread compressing 3. -/
def exThreads : List Task := [linker [(0, 3), (3, 1)], linker [(2, 4)], compressor 3]

theorem exThreads_ok : Threads 5 exThreads := by
  constructor
  · intro t ht
    simp only [exThreads, List.mem_cons, List.not_mem_nil, or_false] at ht
    rcases ht with rfl | rfl | rfl
    · exact Or.inl ⟨_, rfl, by decide⟩
    · exact Or.inl ⟨_, rfl, by decide⟩
    · exact Or.inr ⟨3, rfl, by decide⟩
  · intro i j n hi hj
    have key : ∀ k : Nat, exThreads[k]? = some (compressor n) → k = 2 := by
      intro k hk
      match k with
      | 0 => cases hk
      | 1 => cases hk
      | 2 => rfl
      | k + 3 => simp [exThreads] at hk
    rw [key i hi, key j hj]

example := link_compress_correct 5 (2 ^ 32) (by decide) exThreads exThreads_ok

/-- 0 – 1 – 2, 3 – 4, and the isolated vertex 5. -/
def exSym : Rows Unit := [[(1, ())], [(0, ()), (2, ())], [(1, ())], [(4, ())], [(3, ())], []]

example : Sure (AStep (2 ^ 32) (exSym ++ [[]]) [] 2) (fun comp => comp.length = 7 ∧ comp[6]? = some 6 ∧ LeastLabels (Edge exSym) 6 comp ∧ ComponentLabels (Edge exSym) 6 comp) (start 6 2) :=
  afforest_partial exSym [] [] (2 ^ 32) 2 (by decide) (by decide) (Or.inl ⟨rfl, fun u v h => by
    have hu := h.src_lt
    have : ∀ u < 6, ∀ v ∈ nbrs exSym u, Edge exSym v u := by decide
    exact this u hu v h⟩)

/-- 0 → 1 → 2 ← 3 with its transpose. -/
def exDir : Rows Unit := [[(1, ())], [(2, ())], [], [(2, ())]]
def exDirT : Rows Unit := [[], [(0, ())], [(1, ()), (3, ())], []]

example : Sure (AStep (2 ^ 32) (exDir ++ [[]]) (exDirT ++ [[]]) 1) (fun comp => comp.length = 5 ∧ comp[4]? = some 4 ∧ LeastLabels (Edge exDir) 4 comp ∧ ComponentLabels (Edge exDir) 4 comp)
    (start 4 1) :=
  afforest_partial exDir exDirT _ (2 ^ 32) 1 (by decide) (by decide)
    (Or.inr ⟨rfl, (isTranspose_iff _ _ (by decide) (by decide)).2 (by decide)⟩)

end NW.Cc
