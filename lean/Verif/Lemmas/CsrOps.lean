import Verif.Model.CsrOps
import Verif.Lemmas.Rows
import Verif.Props.CsrBuild

/-! Helper lemmas: the operations on compressed structures, in terms of rows. -/

namespace NW

theorem vget_append_left {β : Type} {l m : List β} {i : Nat} (h : i < l.length) : vget (l ++ m) i = vget l i := by
  unfold vget; rw [List.getElem?_append_left h]

theorem vset_append_cons {β : Type} {l m : List β} {x y : β} {i : Nat} (h : i = l.length) :
    vset (l ++ x :: m) i y = .ok (l ++ y :: m) := by
  subst h
  rw [vset_of_lt (by simp), List.set_append_right _ _ (Nat.le_refl _)]
  simp

theorem vcopy_append {β : Type} {l xs : List β} {k r : Nat} {d : β} (hk : k = l.length) (hx : xs.length ≤ r) :
    vcopy (l ++ List.replicate r d) k xs = .ok ((l ++ xs) ++ List.replicate (r - xs.length) d) := by
  subst hk
  rw [vcopy_of_le (by simp; omega)]
  congr 1
  have h1 : (l ++ List.replicate r d).take l.length = l := List.take_left
  have h2 : (l ++ List.replicate r d).drop (l.length + xs.length) = List.replicate (r - xs.length) d := by
    rw [← List.drop_drop, List.drop_left, List.drop_replicate]
  rw [h1, h2]

theorem inclusiveScan_take (acc : Nat) (l : List Nat) (i : Nat) :
    inclusiveScan acc (l.take i) = (inclusiveScan acc l).take i := by
  induction l generalizing acc i with
  | nil => simp [inclusiveScan]
  | cons x xs ih => cases i with
    | zero => simp [inclusiveScan]
    | succ i => simp [inclusiveScan, ih]

namespace Csr
variable {α : Type}

/-! ### triangularize -/

theorem triRow_ok {comp : Nat → Nat → Bool} {g : Csr α} {rows : List (List (Nat × α))} (h : g.Rows rows)
    {st : List Nat × List (Nat × α)} {i p : Nat} (hi : i < rows.length) (hp : vget st.1 i = .ok p) :
    triRow comp g st i = (vset st.1 (i + 1) (p + (rows[i].filter fun x => comp x.1 i).length)).bind fun ni =>
      .ok (ni, st.2 ++ rows[i].filter fun x => comp x.1 i) := by
  have h1 := take_flatten_length_mono rows (show i ≤ i + 1 by omega)
  unfold triRow
  rw [h.vget (by omega), res_bind_ok, h.vget (by omega), res_bind_ok, if_neg (by omega),
    mapM_edgeAt h.wf.attrs h1 (by rw [h.tgt, List.length_map]; exact take_flatten_length_le _ _), res_bind_ok,
    h.edges, slice_flatten _ _ hi]
  simp only [hp, res_bind_ok]
  rfl

/-- The loop of `triangularize_` after `k` of its iterations. -/
theorem triLoop {comp : Nat → Nat → Bool} {g : Csr α} {rows : List (List (Nat × α))} (h : g.Rows rows)
    (k : Nat) (hk : k ≤ rows.length) :
    let f := rows.mapIdx fun i r => r.filter fun x => comp x.1 i
    (List.range k).foldlM (triRow comp g) (List.replicate g.indices.length 0, []) =
      .ok ((0 :: inclusiveScan 0 ((f.take k).map List.length)) ++ List.replicate (rows.length - k) 0,
        (f.take k).flatten) := by
  intro f
  have hf : f.length = rows.length := by simp [f]
  have h0 : (List.replicate g.indices.length 0, ([] : List (Nat × α))) =
      ((0 :: inclusiveScan 0 ((f.take 0).map List.length)) ++ List.replicate (rows.length - 0) 0,
        (f.take 0).flatten) := by
    simp [h.len, inclusiveScan, List.replicate_succ]
  rw [h0]
  refine foldlM_range_eq (F := fun i => ((0 :: inclusiveScan 0 ((f.take i).map List.length)) ++
    List.replicate (rows.length - i) 0, (f.take i).flatten)) ?_
  intro i hi
  have hil : i < rows.length := by omega
  have hfi : f[i]'(by omega) = rows[i].filter fun x => comp x.1 i := by simp [f]
  have hlen : (0 :: inclusiveScan 0 ((f.take i).map List.length)).length = i + 1 := by
    simp [inclusiveScan_length]; omega
  have hp : vget ((0 :: inclusiveScan 0 ((f.take i).map List.length)) ++ List.replicate (rows.length - i) 0) i =
      .ok ((f.take i).flatten).length := by
    rw [vget_append_left (by omega), vget_eq_ok]
    rw [offsets_rows _ _ (by simp; omega), List.take_take]; simp
  rw [triRow_ok h hil hp, ← hfi]
  have hr : List.replicate (rows.length - i) 0 = 0 :: List.replicate (rows.length - (i + 1)) 0 := by
    rw [← List.replicate_succ]; congr 1; omega
  rw [hr, vset_append_cons hlen.symm]
  simp only [Except.bind]
  rw [flatten_take_succ _ _ (by omega), List.take_succ_eq_append_getElem (by omega : i < f.length), List.map_append,
    inclusiveScan_append]
  simp [inclusiveScan, List.length_flatten]

theorem triangularizeBy_rows {comp : Nat → Nat → Bool} {g : Csr α} {rows : List (List (Nat × α))} (h : g.Rows rows)
    (hN : g.N = rows.length) :
    ∃ g', triangularizeBy comp g = .ok g' ∧ g'.N = g.N ∧
      g'.Rows (rows.mapIdx fun i r => r.filter fun x => comp x.1 i) := by
  have hz : vset (List.replicate g.indices.length 0) 0 0 = .ok (List.replicate g.indices.length 0) := by
    rw [vset_of_lt (by simp [h.len])]
    simp [h.len, List.replicate_succ]
  have hl := triLoop (comp := comp) h rows.length (Nat.le_refl _)
  simp only at hl
  rw [List.take_of_length_le (by simp)] at hl
  generalize (rows.mapIdx fun i r => r.filter fun x => comp x.1 i) = f at hl
  rw [Nat.sub_self, List.replicate_zero, List.append_nil] at hl
  refine ⟨⟨g.isOpen, g.N, 0 :: inclusiveScan 0 (f.map List.length), f.flatten.map (·.1), f.flatten.map (·.2)⟩,
    ?_, rfl, rfl, rfl, rfl⟩
  unfold triangularizeBy
  rw [hz, res_bind_ok, hN, hl, res_bind_ok]
  rfl

theorem triangularizeBy_oob {comp : Nat → Nat → Bool} {g : Csr α} (hg : g.Wf) (hN : g.numVertices < g.N) :
    triangularizeBy comp g = .error .outOfBounds := by
  obtain ⟨rows, h⟩ := hg.rows
  rw [h.numVertices] at hN
  have hz : vset (List.replicate g.indices.length 0) 0 0 = .ok (List.replicate g.indices.length 0) := by
    rw [vset_of_lt (by simp [h.len])]
    simp [h.len, List.replicate_succ]
  have hl := triLoop (comp := comp) h rows.length (Nat.le_refl _)
  simp only at hl
  unfold triangularizeBy
  rw [hz, res_bind_ok]
  have hr : List.range g.N = List.range rows.length ++ rows.length ::
      (List.range' (rows.length + 1) (g.N - rows.length - 1)) := by
    rw [List.range_eq_range', List.range_eq_range', ← List.range'_succ,
      show g.N - rows.length - 1 + 1 = g.N - rows.length by omega]
    have := List.range'_append (s := 0) (m := rows.length) (n := g.N - rows.length) (step := 1)
    rw [show 0 + 1 * rows.length = rows.length by omega, show rows.length + (g.N - rows.length) = g.N by omega] at this
    exact this.symm
  rw [hr, foldlM_error_at hl]
  · rfl
  · unfold triRow
    rw [h.vget (Nat.le_refl _), res_bind_ok, vget_of_ge (by rw [h.len]; omega)]
    rfl

/-! ### sorting the rows -/

theorem sortToBeIndexed_rows {srtIds : List Nat → List Nat} (hs : IsSort (fun a b : Nat => decide (a < b)) srtIds)
    {g : Csr α} {rows : List (List (Nat × α))} (h : g.Rows rows) :
    ∃ g', g.sortToBeIndexed srtIds = .ok g' ∧ g'.N = g.N ∧
      g'.Rows (rows.map fun r => (srtIds (r.map (·.1))).zip (r.map (·.2))) := by
  let T := rows.map fun r => r.map (·.1)
  let S := rows.map fun r => srtIds (r.map (·.1))
  have hSl : ∀ (r : List (Nat × α)), (srtIds (r.map (·.1))).length = r.length := fun r => by
    simpa using (hs.perm (r.map (·.1))).length_eq
  have hlen : ∀ i, ((S.take i).flatten).length = ((rows.take i).flatten).length := by
    intro i
    simp only [S, List.length_flatten, List.map_take, List.map_map]
    congr 2
    apply List.map_congr_left
    intro r _
    exact hSl r
  have hTlen : ∀ i, ((T.take i).flatten).length = ((rows.take i).flatten).length := by
    intro i
    simp only [T, List.length_flatten, List.map_take, List.map_map]
    congr 2
    apply List.map_congr_left
    intro r _
    simp
  have ht : g.tgt = T.flatten := by rw [h.tgt, List.map_flatten]
  have hTl : T.length = rows.length := by simp [T]
  have hSS : S.length = rows.length := by simp [S]
  have loop : (List.range (g.indices.length - 1)).foldlM (sortRow srtIds g.indices) g.tgt = .ok S.flatten := by
    rw [h.len, Nat.add_sub_cancel]
    have := foldlM_range_eq (n := rows.length) (f := sortRow srtIds g.indices)
      (F := fun i => (S.take i).flatten ++ (T.drop i).flatten) ?_
    · rw [List.take_of_length_le (by omega : S.length ≤ rows.length),
        List.drop_eq_nil_of_le (by omega : T.length ≤ rows.length)] at this
      simpa [ht] using this
    · intro i hi
      have h1 := take_flatten_length_mono rows (show i ≤ i + 1 by omega)
      have hd : T.drop i = T[i]'(by omega) :: T.drop (i + 1) := List.drop_eq_getElem_cons (by omega)
      have hbl : ((rows.take (i + 1)).flatten).length = ((rows.take i).flatten).length + (T[i]'(by omega)).length := by
        rw [← hTlen, ← hTlen, flatten_take_succ _ _ (by omega), List.length_append]
      unfold sortRow
      rw [h.vget (by omega), res_bind_ok, h.vget (by omega), res_bind_ok]
      have hcond : ((rows.take i).flatten).length ≤ ((rows.take (i + 1)).flatten).length ∧
          ((rows.take (i + 1)).flatten).length ≤ ((S.take i).flatten ++ (T.drop i).flatten).length := by
        refine ⟨h1, ?_⟩
        rw [List.length_append, hlen, hbl, hd, List.flatten_cons, List.length_append]; omega
      rw [if_pos hcond]
      have e1 : ((S.take i).flatten ++ (T.drop i).flatten).take ((rows.take i).flatten).length = (S.take i).flatten :=
        take_of_eq_append rfl (hlen i).symm
      have e2 : ((S.take i).flatten ++ (T.drop i).flatten).drop ((rows.take i).flatten).length = (T.drop i).flatten :=
        drop_of_eq_append rfl (hlen i).symm
      have e3 : ((S.take i).flatten ++ (T.drop i).flatten).drop ((rows.take (i + 1)).flatten).length =
          (T.drop (i + 1)).flatten := by
        refine drop_of_eq_append (a := (S.take i).flatten ++ T[i]'(by omega)) ?_ ?_
        · rw [hd, List.flatten_cons, List.append_assoc]
        · rw [List.length_append, hlen, hbl]
      have e4 : ((T.drop i).flatten).take (((rows.take (i + 1)).flatten).length - ((rows.take i).flatten).length) =
          T[i]'(by omega) := by
        rw [hd, List.flatten_cons]
        exact take_of_eq_append rfl (by omega)
      rw [e1, e2, e3, e4, flatten_take_succ S _ (by omega)]
      have e5 : srtIds (T[i]'(by omega)) = S[i]'(by omega) := by simp [S, T]
      rw [e5]; rfl
  refine ⟨{ g with tgt := S.flatten }, ?_, rfl, ?_, ?_, ?_⟩
  · unfold sortToBeIndexed; rw [loop]; rfl
  · show g.indices = _
    rw [h.indices, List.map_map]
    congr 2
    apply List.map_congr_left
    intro r _
    simp [hSl]
  · show S.flatten = _
    rw [List.map_flatten, List.map_map]
    congr 1
    apply List.map_congr_left
    intro r _
    simp only [Function.comp]
    rw [List.map_fst_zip (by simp [hSl])]
  · show g.attrs = _
    rw [h.attrs, List.map_flatten, List.map_flatten, List.map_map]
    congr 1
    apply List.map_congr_left
    intro r _
    simp only [Function.comp]
    rw [List.map_snd_zip (by simp [hSl])]

/-! ### permuting by degree -/

theorem invertPerm_ok {p : List Nat} {n : Nat} (hp : p.Perm (List.range n)) :
    ∃ q, invertPerm p = .ok q ∧ q.length = n ∧ ∀ k (hk : k < p.length), q[p[k]]? = some k := by
  have hl : p.length = n := by simpa using hp.length_eq
  have hnd : p.Nodup := hp.symm.nodup List.nodup_range
  have hlt : ∀ k (hk : k < p.length), p[k] < n := fun k hk => by
    have := hp.mem_iff.1 (List.getElem_mem hk); simpa using this
  have step : ∀ i, i < p.length → ∀ v : List Nat,
      (v.length = n ∧ ∀ k (hk : k < p.length), k < i → v[p[k]]? = some k) →
      ∃ v', (do
        let x ← vget p i
        vset v x i : Res (List Nat)) = .ok v' ∧
        (v'.length = n ∧ ∀ k (hk : k < p.length), k < i + 1 → v'[p[k]]? = some k) := by
    intro i hi v ⟨hv, hk⟩
    refine ⟨v.set p[i] i, ?_, by simpa using hv, ?_⟩
    · rw [vget_of_lt hi, res_bind_ok, vset_of_lt (by rw [hv]; exact hlt i hi)]
    · intro k hkl hki
      by_cases hki' : k = i
      · subst hki'
        rw [List.getElem?_set_self (by rw [hv]; exact hlt k hkl)]
      · rw [List.getElem?_set_ne ?_]
        · exact hk k hkl (by omega)
        · intro heq
          exact hki' ((List.getElem_inj hnd).1 heq).symm
  obtain ⟨q, e, h1, h2⟩ := foldlM_range_inv (s := List.replicate p.length 0) _
    ⟨by simp [hl], fun k _ hk => by omega⟩ step
  exact ⟨q, e, h1, fun k hk => h2 k hk hk⟩

theorem permuteCol_rows {β : Type} [Inhabited β] {cols : List (List β)} {q : List Nat} {indices : List Nat}
    (hq : q.Perm (List.range cols.length))
    (hi : indices = 0 :: inclusiveScan 0 (cols.map List.length)) :
    permuteCol indices (0 :: inclusiveScan 0 ((q.map fun j => cols.getD j []).map List.length)) q cols.flatten =
      .ok (q.map fun j => cols.getD j []).flatten := by
  have hl : q.length = cols.length := by simpa using hq.length_eq
  have hlt : ∀ k (hk : k < q.length), q[k] < cols.length := fun k hk => by
    have := hq.mem_iff.1 (List.getElem_mem hk); simpa using this
  let R := q.map fun j => cols.getD j []
  have hR : R.length = cols.length := by simp [R, hl]
  have hRtot : R.flatten.length = cols.flatten.length := by
    have h1 : R.Perm ((List.range cols.length).map fun j => cols.getD j []) := hq.map _
    have h2 : ((List.range cols.length).map fun j => cols.getD j []) = cols := by
      apply List.ext_getElem
      · simp
      · intro i h1 h2
        simp [List.getD_eq_getElem?_getD, h2]
    rw [h2] at h1
    exact h1.flatten.length_eq
  have hil : indices.length = cols.length + 1 := by rw [hi]; simp [inclusiveScan_length]
  have hget : ∀ u, u ≤ cols.length → vget indices u = .ok ((cols.take u).flatten).length := by
    intro u hu; rw [vget_eq_ok, hi]; exact offsets_rows _ _ hu
  have loop := foldlM_range_eq (n := cols.length)
    (f := fun ws i => do
      let j ← vget q i
      let b ← vget indices j
      let e ← vget indices (j + 1)
      let k ← vget (0 :: inclusiveScan 0 (R.map List.length)) i
      if b ≤ e ∧ e ≤ cols.flatten.length then vcopy ws k ((cols.flatten.drop b).take (e - b))
      else .error .outOfBounds)
    (F := fun i => (R.take i).flatten ++ List.replicate (cols.flatten.length - ((R.take i).flatten).length) default) ?_
  · unfold permuteCol
    simp only [List.take_zero, List.flatten_nil, List.nil_append, List.length_nil, Nat.sub_zero] at loop
    rw [hil, Nat.add_sub_cancel]
    rw [loop, List.take_of_length_le (by omega), hRtot]
    simp [R]
  · intro i hic
    have hiq : i < q.length := by omega
    have hj := hlt i hiq
    have hRi : R[i]'(by omega) = cols[q[i]] := by
      simp [R, List.getD_eq_getElem?_getD, List.getElem?_eq_getElem hj]
    have hk : vget (0 :: inclusiveScan 0 (R.map List.length)) i = .ok ((R.take i).flatten).length := by
      rw [vget_eq_ok]; exact offsets_rows _ _ (by omega)
    rw [vget_of_lt hiq, res_bind_ok, hget _ (by omega), res_bind_ok, hget _ (by omega), res_bind_ok, hk, res_bind_ok,
      if_pos ⟨take_flatten_length_mono _ (by omega), take_flatten_length_le _ _⟩]
    have hsl := slice_flatten cols q[i] hj
    unfold slice at hsl
    rw [hsl, ← hRi]
    have hle : ((R.take (i + 1)).flatten).length ≤ cols.flatten.length := by
      rw [← hRtot]; exact take_flatten_length_le _ _
    have hsucc : ((R.take (i + 1)).flatten) = (R.take i).flatten ++ R[i]'(by omega) := flatten_take_succ _ _ (by omega)
    rw [vcopy_append rfl (by rw [hsucc, List.length_append] at hle; omega), hsucc, List.length_append, Nat.sub_sub]

end Csr
end NW
