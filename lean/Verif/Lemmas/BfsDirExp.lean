import Verif.Model.BfsDirExp
import Verif.Props.BfsExp

/-! # Lemmas on the experimental direction-optimizing searches -/

namespace NW.BfsDirExp
open Spec Bfs Dobfs

variable {α : Type}

/-! ## flush -/

theorem offsets_length (k : Nat) (lq : List (List Nat)) : (offsets k lq).length = lq.length := by
  induction lq generalizing k with
  | nil => rfl
  | cons b bs ih => simp [offsets, ih]

theorem offsets_get {lq : List (List Nat)} {i : Nat} (h : i < lq.length) (k : Nat) :
    (offsets k lq)[i]? = some (k + (lq.take i).flatten.length) := by
  induction lq generalizing k i with
  | nil => simp at h
  | cons b bs ih =>
    cases i with
    | zero => simp [offsets]
    | succ i =>
      simp only [offsets, List.getElem?_cons_succ, List.take_succ_cons, List.flatten_cons, List.length_append]
      rw [ih (by simpa using h)]
      congr 1; omega

/-- Copying a list over a part of another. -/
theorem copy_run (b : List Nat) : ∀ (q : List Nat) (k j : Nat), k + j + b.length ≤ q.length →
    ∃ q', (b.zipIdx j).foldlM (fun q x => vset q (k + x.2) x.1) q = .ok q' ∧ q'.length = q.length ∧
      (∀ i, i < b.length → q'[k + j + i]? = b[i]?) ∧ ∀ m, (m < k + j ∨ k + j + b.length ≤ m) → q'[m]? = q[m]? := by
  induction b with
  | nil =>
    intro q k j h
    exact ⟨q, rfl, rfl, by simp, fun _ _ => rfl⟩
  | cons x b ih =>
    intro q k j h
    simp only [List.length_cons] at h
    rw [List.zipIdx_cons, List.foldlM_cons, vset_of_lt (by simp only; omega), res_bind_ok]
    obtain ⟨q', h1, h2, h3, h4⟩ := ih (q.set (k + j) x) k (j + 1) (by simp; omega)
    refine ⟨q', h1, by simpa using h2, ?_, ?_⟩
    · intro i hi
      cases i with
      | zero =>
        rw [Nat.add_zero, h4 _ (by omega), getElem?_set_same (List.getElem?_eq_getElem (show k + j < q.length by omega))]; rfl
      | succ i =>
        have := h3 i (by simpa using hi)
        rw [show k + j + (i + 1) = k + (j + 1) + i by omega, this]; rfl
    · intro m hm
      simp only [List.length_cons] at hm
      rw [h4 m (by omega), getElem?_set_other (by omega)]

theorem copyBin_run {lq : List (List Nat)} {i : Nat} (hi : i < lq.length) {q : List Nat} (hq : q.length = lq.flatten.length) :
    ∃ q', copyBin (offsets 0 lq) lq q i = .ok q' ∧ q'.length = lq.flatten.length ∧
      (∀ j, j < lq[i].length → q'[(lq.take i).flatten.length + j]? = lq.flatten[(lq.take i).flatten.length + j]?) ∧
      ∀ m : Nat, q[m]? = lq.flatten[m]? → q'[m]? = lq.flatten[m]? := by
  have e : lq.flatten = (lq.take i).flatten ++ (lq[i] ++ (lq.drop (i + 1)).flatten) := by
    have : lq = lq.take i ++ lq[i] :: lq.drop (i + 1) := by rw [List.getElem_cons_drop, List.take_append_drop]
    have h2 := congrArg List.flatten this
    rwa [List.flatten_append, List.flatten_cons] at h2
  have hlen := congrArg List.length e
  simp only [List.length_append] at hlen
  have hget : ∀ j, j < lq[i].length → lq.flatten[(lq.take i).flatten.length + j]? = lq[i][j]? := by
    intro j hj
    rw [e, List.getElem?_append_right (by omega), List.getElem?_append_left (by omega)]
    congr 1; omega
  unfold copyBin
  rw [vget_eq_ok.2 (offsets_get hi 0), res_bind_ok, vget_of_lt hi, res_bind_ok]
  obtain ⟨q', h1, h2, h3, h4⟩ := copy_run lq[i] q (0 + (lq.take i).flatten.length) 0 (by omega)
  simp only [Nat.zero_add, Nat.add_zero] at h1 h3 h4
  refine ⟨q', by simpa using h1, by omega, fun j hj => by rw [h3 j hj, hget j hj], ?_⟩
  intro m hm
  by_cases c : m < (lq.take i).flatten.length ∨ (lq.take i).flatten.length + lq[i].length ≤ m
  · rw [h4 m c, hm]
  · obtain ⟨j, rfl⟩ : ∃ j, m = (lq.take i).flatten.length + j := ⟨m - (lq.take i).flatten.length, by omega⟩
    have hj : j < lq[i].length := by omega
    rw [h3 j hj, hget j hj]

/-- Every position of a concatenation lies in one of the parts. -/
theorem position (lq : List (List Nat)) (m : Nat) (h : m < lq.flatten.length) :
    ∃ i, ∃ hi : i < lq.length, ∃ j, j < lq[i].length ∧ m = (lq.take i).flatten.length + j := by
  induction lq generalizing m with
  | nil => simp at h
  | cons b bs ih =>
    by_cases c : m < b.length
    · exact ⟨0, by simp, m, by simpa using c, by simp⟩
    · simp only [List.flatten_cons, List.length_append] at h
      obtain ⟨i, hi, j, h1, h2⟩ := ih (m - b.length) (by omega)
      refine ⟨i + 1, by simpa using hi, j, by simpa using h1, ?_⟩
      simp only [List.take_succ_cons, List.flatten_cons, List.length_append]
      omega

/-- Flushing concatenates the queues and empties them, in whatever order they are copied. -/
theorem flush_run {ord : List Nat} {lq : List (List Nat)} (queue : List Nat) (h : ord.Perm (List.range lq.length)) :
    flush ord lq queue = .ok (List.replicate lq.length [], lq.flatten) := by
  have hsz : (lq.map List.length).sum = lq.flatten.length := (List.length_flatten).symm
  have hmem : ∀ i, i ∈ ord ↔ i < lq.length := fun i => by rw [h.mem_iff, List.mem_range]
  obtain ⟨q, h1, h2, h3⟩ := foldlM_list_inv (l := ord) (f := copyBin (offsets 0 lq) lq)
    (s := queue.take lq.flatten.length ++ List.replicate (lq.flatten.length - queue.length) 0)
    (fun pre q => q.length = lq.flatten.length ∧ ∀ i, i ∈ pre → ∀ hi : i < lq.length, ∀ j, j < lq[i].length →
      q[(lq.take i).flatten.length + j]? = lq.flatten[(lq.take i).flatten.length + j]?)
    ⟨by simp; omega, by simp⟩
    (by
      rintro pre i post hp q ⟨h1, h2⟩
      have hi := (hmem i).1 (by rw [hp]; simp)
      obtain ⟨q', k1, k2, k3, k4⟩ := copyBin_run hi h1
      refine ⟨q', k1, k2, ?_⟩
      intro i' hi' hil j hj
      rcases List.mem_append.1 hi' with hi' | hi'
      · exact k4 _ (h2 i' hi' hil j hj)
      · simp at hi'; subst hi'; exact k3 j hj)
  have hq : q = lq.flatten := by
    apply List.ext_getElem?
    intro m
    by_cases c : m < lq.flatten.length
    · obtain ⟨i, hi, j, k1, k2⟩ := position lq m c
      rw [k2]
      exact h3 i ((hmem i).2 hi) hi j k1
    · rw [List.getElem?_eq_none (by omega), List.getElem?_eq_none (by omega)]
  unfold flush
  simp only
  rw [hsz, h1, res_bind_ok, hq]
  simp [List.map_const']

/-! ## bitmap_to_queue -/

theorem bitmapToQueue_run {threads : Nat} {lq : List (List Nat)} (hth : threads ≤ lq.length) :
    ∀ (p : List (Nat × Nat)), (∀ x ∈ p, x.2 < threads) →
    ∃ lq', bitmapToQueue p lq = .ok lq' ∧ lq'.length = lq.length ∧ ∀ v, v ∈ lq'.flatten ↔ v ∈ lq.flatten ∨ v ∈ p.map Prod.fst := by
  intro p hp
  obtain ⟨q, h1, h2, h3⟩ := foldlM_list_inv (l := p) (s := lq)
    (f := fun q (x : Nat × Nat) => do
      let b ← vget q x.2
      vset q x.2 (b ++ [x.1]))
    (fun pre q => q.length = lq.length ∧ ∀ v, v ∈ q.flatten ↔ v ∈ lq.flatten ∨ v ∈ pre.map Prod.fst)
    ⟨rfl, by simp⟩
    (by
      rintro pre x post hpx q ⟨h1, h2⟩
      have hx := hp x (by rw [hpx]; simp)
      have hlt : x.2 < q.length := by omega
      have hg : q[x.2]? = some q[x.2] := List.getElem?_eq_getElem hlt
      refine ⟨q.set x.2 (q[x.2] ++ [x.1]), by rw [vget_of_lt hlt, res_bind_ok, vset_of_lt hlt], by simpa using h1, ?_⟩
      intro v
      rw [mem_flatten_set hg, h2]
      simp [or_assoc])
  exact ⟨q, h1, h2, h3⟩

/-! ## Top-down rounds -/

theorem tdTask_step {c : Args α} {root l w : Nat} (hc : Usable c root) {ts : List (TdTask α)} {lq : List (List Nat)} {par : List Nat}
    (hI : TdInv c root l ts lq par) (hw : w < c.bins) {i : Nat} {t : TdTask α} (hi : ts[i]? = some t) (hf : ¬ t.finished) :
    ∃ lq' par' t', tdTask c w lq par t = .ok (lq', par', t') ∧ t'.weight < t.weight ∧ TdInv c root l (ts.set i t') lq' par' := by
  match hpc : t.pc with
  | .idle =>
    obtain ⟨a, b, d, h1, h2⟩ := Dobfs.tdTask_step hc hI hi hf
    exact ⟨a, b, d, by rw [tdTask, hpc]; exact h1, h2⟩
  | .tryCas v =>
    obtain ⟨a, b, d, h1, h2⟩ := Dobfs.tdTask_step hc hI hi hf
    exact ⟨a, b, d, by rw [tdTask, hpc]; exact h1, h2⟩
  | .push v =>
    obtain ⟨hu, ⟨sc, hsc, hscp⟩, hpush⟩ := hI.task i _ hi
    rw [hpc] at hsc
    have hdv := hpush v hpc
    have hvn := hdv.1.lt hc.inRange hc.rootLt
    have hb : w < lq.length := by rw [hI.bins]; exact hw
    have hgb : lq[w]? = some lq[w] := List.getElem?_eq_getElem hb
    simp only [tdTask, hpc]
    rw [vget_eq_ok.2 hgb, res_bind_ok, vset_of_lt hb, res_bind_ok, vget_row hvn, res_bind_ok]
    refine ⟨_, _, _, rfl, by simp only [TdTask.weight, hpc]; omega, { hI with task := ?_, cover := ?_, bins := by simp [hI.bins], new := ?_, newq := ?_ }⟩
    · intro j t' hj
      rcases getElem?_set_cases hj with ⟨rfl, rfl⟩ | ⟨hne, hj⟩
      · exact ⟨hu, ⟨sc, by rw [hsc]; simp [TdPc.pending], hscp⟩, by simp⟩
      · exact hI.task j t' hj
    · intro x hx
      obtain ⟨j, t', hj, htu⟩ := hI.cover x hx
      by_cases cj : i = j
      · subst cj; rw [hi] at hj; cases hj
        exact ⟨i, _, getElem?_set_same hi, htu⟩
      · exact ⟨j, t', by rw [getElem?_set_other cj]; exact hj, htu⟩
    · intro x px h1 h2 h3
      rw [mem_flatten_set hgb]
      rcases hI.new x px h1 h2 h3 with h | ⟨j, t', hj, htp⟩
      · exact Or.inl (Or.inl h)
      · by_cases cj : i = j
        · subst cj; rw [hi] at hj; cases hj
          rw [hpc] at htp
          simp at htp
          exact Or.inl (Or.inr htp.symm)
        · exact Or.inr ⟨j, t', by rw [getElem?_set_other cj]; exact hj, htp⟩
    · intro x hx
      rw [mem_flatten_set hgb] at hx
      rcases hx with hx | rfl
      · exact hI.newq x hx
      · exact hdv

/-- Steps all of whose outcomes go on. -/
theorem sure_all {ver : Ver} {c : Args α} {threads : Nat} {Q : List Nat → Prop} {s : State α} (hex : ∃ o, Step ver c threads s o)
    (h : ∀ o, Step ver c threads s o → (∃ r, o = .ok (.inr r) ∧ Q r) ∨ ∃ s', o = .ok (.inl s') ∧ Sure (Step ver c threads) Q s') :
    Sure (Step ver c threads) Q s := by
  refine .mk hex ?_ ?_ ?_
  · intro f hf
    rcases h _ hf with ⟨r, h, _⟩ | ⟨s', h, _⟩ <;> cases h
  · intro r hr
    rcases h _ hr with ⟨r, h, hq⟩ | ⟨s', h, _⟩ <;> cases h
    exact hq
  · intro s' hs'
    rcases h _ hs' with ⟨r, h, _⟩ | ⟨s', h, hq⟩ <;> cases h
    exact hq

theorem td_phase {ver : Ver} {c : Args α} {threads : Nat} {root l : Nat} (hc : Usable c root) (hth : 0 < threads ∧ threads ≤ c.bins) {Q : List Nat → Prop}
    {queue : List Nat} {front curr : List Bool} {edges : Nat}
    (hjoin : ∀ ts lq par, TdInv c root l ts lq par → (∀ t ∈ ts, t.finished) → Sure (Step ver c threads) Q (.td ts queue lq par front curr edges)) :
    ∀ ts lq par, TdInv c root l ts lq par → Sure (Step ver c threads) Q (.td ts queue lq par front curr edges) := by
  intro ts
  generalize hm : (ts.map TdTask.weight).sum = m
  induction m using Nat.strongRecOn generalizing ts with
  | ind m ih =>
    intro lq par hI
    by_cases hall : ∀ t ∈ ts, t.finished
    · exact hjoin ts lq par hI hall
    · push Not at hall
      obtain ⟨t₀, ht₀, hf₀⟩ := hall
      obtain ⟨i₀, hi₀⟩ := List.getElem?_of_mem ht₀
      refine sure_all ⟨_, .tdStep hi₀ hf₀ hth.1⟩ ?_
      intro o ho
      right
      cases ho with
      | tdStep hi hf hw =>
        obtain ⟨lq', par', t', h1, h2, h3⟩ := tdTask_step hc hI (Nat.lt_of_lt_of_le hw hth.2) hi hf
        refine ⟨_, by rw [h1]; rfl, ih _ ?_ _ rfl _ _ h3⟩
        rw [← hm]; exact sum_map_set_lt _ hi h2
      | tdJoin hf => exact absurd (hf t₀ ht₀) hf₀

theorem bu_phase {ver : Ver} {c : Args α} {threads : Nat} {root l : Nat} (hc : Usable c root) {Q : List Nat → Prop} {queue : List Nat} {lq : List (List Nat)}
    {front : List Bool} {edges old : Nat}
    (hjoin : ∀ ts par curr, BuInv c root l front ts par curr → (∀ t ∈ ts, t.isDone = true) →
      Sure (Step ver c threads) Q (.bu ts old queue lq par front curr edges)) :
    ∀ ts par curr, BuInv c root l front ts par curr → Sure (Step ver c threads) Q (.bu ts old queue lq par front curr edges) := by
  intro ts
  generalize hm : (ts.map BuTask.weight).sum = m
  induction m using Nat.strongRecOn generalizing ts with
  | ind m ih =>
    intro par curr hI
    by_cases hall : ∀ t ∈ ts, t.isDone = true
    · exact hjoin ts par curr hI hall
    · push Not at hall
      obtain ⟨t₀, ht₀, hf₀⟩ := hall
      obtain ⟨i₀, hi₀⟩ := List.getElem?_of_mem ht₀
      refine sure_all ⟨_, .buStep hi₀ (by simpa using hf₀)⟩ ?_
      intro o ho
      right
      cases ho with
      | buStep hi hf =>
        obtain ⟨par', curr', t', h1, h2, h3⟩ := buTask_step hc hI hi hf
        refine ⟨_, by rw [h1]; rfl, ih _ ?_ _ rfl _ _ h3⟩
        rw [← hm]; exact sum_map_set_lt _ hi h2
      | buJoin hf => exact absurd (hf t₀ ht₀) hf₀

theorem listing_mem {threads : Nat} {bits : List Bool} {p : List (Nat × Nat)} (h : Listing threads bits p) (v : Nat) :
    v ∈ p.map Prod.fst ↔ bits[v]? = some true := by
  rw [h.1.mem_iff, List.mem_filter, List.mem_range]
  constructor
  · rintro ⟨-, h⟩; simpa using h
  · intro h
    exact ⟨(List.getElem?_eq_some_iff.1 h).1, by simp [h]⟩

theorem exists_listing {threads : Nat} (h : 0 < threads) (bits : List Bool) : ∃ p, Listing threads bits p := by
  refine ⟨((List.range bits.length).filter fun i => bits[i]? = some true).map fun i => (i, 0), ?_, ?_⟩
  · rw [List.map_map]
    have : (Prod.fst ∘ fun i : Nat => (i, 0)) = id := rfl
    rw [this, List.map_id]
  · intro x hx
    obtain ⟨i, -, rfl⟩ := List.mem_map.1 hx
    exact h

end NW.BfsDirExp
