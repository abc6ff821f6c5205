import Verif.Model.BitOwner
import Verif.Props.BitVector

/-!
# C136: bit vectors are values of their own, and the memory they own is freed once
-/

namespace NW.BitOwner
open Spec

/-- The object holds the value. -/
structure Holds (B : Nat) (heap : Nat → Option Block) (o : Obj) (v : Bits) : Prop where
  size : o.bits = v.size
  moved : v.moved = true ↔ o.data = none
  null : o.data = none → v.size = 0
  block : ∀ p, o.data = some p → ∃ b, heap p = some b ∧ blockLength b = BitVec'.words B v.size ∧
    (v.ready = true → ∃ w, b = .words w ∧ BitVec'.Fits B w ∧ ∀ i, i < v.size → BitVec'.bitAt B w i = v.mem i)

/-- The objects hold the values of the pool, and no array belongs to two objects. -/
structure Agree (B : Nat) (σ : World) (s : Pool) : Prop where
  dead : ∀ x, σ.obj x = none ↔ s x = none
  live : ∀ x o v, σ.obj x = some o → s x = some v → Holds B σ.heap o v
  alone : ∀ x y o o' p, σ.obj x = some o → σ.obj y = some o' → o.data = some p → o'.data = some p → x = y
  fresh : ∀ p, σ.next ≤ p → σ.heap p = none

theorem Holds.frame {B : Nat} {heap heap' : Nat → Option Block} {o : Obj} {v : Bits} (h : Holds B heap o v) (hf : ∀ p, o.data = some p → heap' p = heap p) : Holds B heap' o v :=
  ⟨h.size, h.moved, h.null, fun p hp => by rw [hf p hp]; exact h.block p hp⟩

theorem holds_gone (B : Nat) (heap : Nat → Option Block) : Holds B heap ⟨0, none⟩ .gone :=
  ⟨rfl, by simp [Bits.gone], fun _ => rfl, fun p hp => by cases hp⟩

theorem Agree.obj {B : Nat} {σ : World} {s : Pool} (h : Agree B σ s) {x : Nat} {v : Bits} (hx : s x = some v) : ∃ o, σ.obj x = some o ∧ Holds B σ.heap o v := by
  cases ho : σ.obj x with
  | none => rw [(h.dead x).mp ho] at hx; cases hx
  | some o => exact ⟨o, rfl, h.live x o v ho hx⟩

theorem Agree.below {B : Nat} {σ : World} {s : Pool} (h : Agree B σ s) {x : Nat} {o : Obj} (hx : σ.obj x = some o) {p : Nat} (hp : o.data = some p) : p < σ.next := by
  cases hv : s x with
  | none => rw [(h.dead x).mpr hv] at hx; cases hx
  | some v =>
    obtain ⟨b, hb, -⟩ := (h.live x o v hx hv).block p hp
    refine Nat.lt_of_not_le fun hc => ?_
    rw [h.fresh p hc] at hb
    cases hb

/-- Exchanging what is held by one object, in its own array. -/
theorem Agree.write {B : Nat} {σ : World} {s : Pool} (h : Agree B σ s) {x : Nat} {o : Obj} {v' : Bits} {p : Nat} {b : Block} (hx : σ.obj x = some o) (hp : o.data = some p)
    (hv : Holds B (putBlock σ.heap p (some b)) o v') : Agree B { σ with heap := putBlock σ.heap p (some b) } (s.put x (some v')) := by
  refine ⟨?_, ?_, h.alone, ?_⟩
  · intro y
    unfold Pool.put
    by_cases hy : y = x
    · subst hy; simp [hx]
    · rw [if_neg hy]; exact h.dead y
  · intro y o1 v1 ho hv1
    unfold Pool.put at hv1
    by_cases hy : y = x
    · subst hy
      rw [if_pos rfl] at hv1
      have h1 : o = o1 := by rw [hx] at ho; exact Option.some.inj ho
      cases hv1
      rw [← h1]; exact hv
    · rw [if_neg hy] at hv1
      refine (h.live y o1 v1 ho hv1).frame ?_
      intro q hq
      have : q ≠ p := fun hqp => hy (h.alone y x o1 o p ho hx (hqp ▸ hq) hp)
      show putBlock _ _ _ _ = _
      unfold putBlock
      rw [if_neg this]
  · intro q hq
    have := h.below hx hp
    show putBlock _ _ _ _ = _
    unfold putBlock
    rw [if_neg (by have : σ.next ≤ q := hq; omega)]
    exact h.fresh q hq

theorem clear_agree {B : Nat} {σ : World} {s : Pool} (h : Agree B σ s) {x : Nat} {v : Bits} (hx : s x = some v) :
    ∃ σ', clear B σ x = .ok σ' ∧ Agree B σ' (s.put x (some ⟨v.size, true, fun _ => false, v.moved⟩)) := by
  obtain ⟨o, ho, hh⟩ := h.obj hx
  unfold clear theObj
  rw [ho]
  show ∃ σ', (match o.data with | none => _ | some p => _ : Res World) = _ ∧ _
  cases hd : o.data with
  | none =>
    have h0 : o.bits = 0 := by rw [hh.size, hh.null hd]
    refine ⟨σ, by simp [h0, BitVec'.words], ?_⟩
    refine ⟨?_, ?_, h.alone, h.fresh⟩
    · intro y
      unfold Pool.put
      by_cases hy : y = x
      · subst hy; simp [ho]
      · rw [if_neg hy]; exact h.dead y
    · intro y o1 v1 ho1 hv1
      unfold Pool.put at hv1
      by_cases hy : y = x
      · subst hy
        rw [if_pos rfl] at hv1
        rw [ho] at ho1
        cases ho1; cases hv1
        exact ⟨hh.size, hh.moved, hh.null, fun p hp => by rw [hd] at hp; cases hp⟩
      · rw [if_neg hy] at hv1
        exact h.live y o1 v1 ho1 hv1
  | some p =>
    obtain ⟨b, hb, hl, -⟩ := hh.block p hd
    refine ⟨_, ?_, h.write (v' := ⟨v.size, true, fun _ => false, v.moved⟩) (b := .words (BitVec'.new B o.bits)) ho hd ?_⟩
    · dsimp only
      unfold theBlock
      rw [hb]
      show (if _ then _ else _ : Res World) = _
      rw [if_pos (by rw [hl, hh.size])]
      rfl
    · refine ⟨hh.size, hh.moved, (fun hn => by rw [hd] at hn; cases hn), ?_⟩
      intro q hq
      have hqp : q = p := by rw [hd] at hq; exact (Option.some.inj hq).symm
      subst hqp
      refine ⟨.words (BitVec'.new B o.bits), by unfold putBlock; rw [if_pos rfl], by simp [blockLength, BitVec'.new, hh.size], fun _ => ⟨_, rfl, ?_, fun i _ => BitVec'.bitAt_new B _ i⟩⟩
      intro w hw
      unfold BitVec'.new at hw
      rw [(List.mem_replicate.mp hw).2]
      exact Nat.two_pow_pos B

theorem putObj_same (f : Nat → Option Obj) (x : Nat) (o : Option Obj) : putObj f x o x = o := by unfold putObj; rw [if_pos rfl]

theorem putObj_ne (f : Nat → Option Obj) {x y : Nat} (o : Option Obj) (h : y ≠ x) : putObj f x o y = f y := by unfold putObj; rw [if_neg h]

theorem pool_same (s : Pool) (x : Nat) (v : Option Bits) : s.put x v x = v := by unfold Pool.put; rw [if_pos rfl]

theorem pool_ne (s : Pool) {x y : Nat} (v : Option Bits) (h : y ≠ x) : s.put x v y = s y := by unfold Pool.put; rw [if_neg h]

theorem raw_agree {B : Nat} {σ : World} {s : Pool} (h : Agree B σ s) {x : Nat} (n : Nat) (hx : s x = none) :
    Agree B ⟨putObj σ.obj x (some ⟨n, some σ.next⟩), putBlock σ.heap σ.next (some (.raw (BitVec'.words B n))), σ.next + 1⟩ (s.put x (some ⟨n, false, fun _ => false, false⟩)) := by
  refine ⟨?_, ?_, ?_, ?_⟩
  · intro y
    by_cases hy : y = x
    · subst hy; simp [putObj_same, pool_same]
    · show putObj _ _ _ _ = _ ↔ _
      rw [putObj_ne _ _ hy, pool_ne _ _ hy]; exact h.dead y
  · intro y o v ho hv
    by_cases hy : y = x
    · subst hy
      rw [pool_same] at hv
      have ho : putObj _ _ _ _ = _ := ho
      rw [putObj_same] at ho
      cases ho; cases hv
      refine ⟨rfl, by simp, (fun hn => by cases hn), ?_⟩
      intro p hp
      cases hp
      exact ⟨.raw (BitVec'.words B n), if_pos rfl, rfl, fun hr => by cases hr⟩
    · rw [pool_ne _ _ hy] at hv
      have ho : putObj _ _ _ _ = _ := ho
      rw [putObj_ne _ _ hy] at ho
      refine (h.live y o v ho hv).frame ?_
      intro p hp
      have := h.below ho hp
      show putBlock _ _ _ _ = _
      unfold putBlock
      rw [if_neg (by omega)]
  · intro y z o o' p hy hz hp hp'
    have hy : putObj _ _ _ _ = _ := hy
    have hz : putObj _ _ _ _ = _ := hz
    by_cases h1 : y = x
    · by_cases h2 : z = x
      · rw [h1, h2]
      · exfalso
        rw [h1, putObj_same] at hy
        rw [putObj_ne _ _ h2] at hz
        cases hy; cases hp
        exact absurd (h.below hz hp') (Nat.lt_irrefl _)
    · by_cases h2 : z = x
      · exfalso
        rw [h2, putObj_same] at hz
        rw [putObj_ne _ _ h1] at hy
        cases hz; cases hp'
        exact absurd (h.below hy hp) (Nat.lt_irrefl _)
      · rw [putObj_ne _ _ h1] at hy
        rw [putObj_ne _ _ h2] at hz
        exact h.alone y z o o' p hy hz hp hp'
  · intro q hq
    have hq : σ.next + 1 ≤ q := hq
    show putBlock _ _ _ _ = _
    unfold putBlock
    rw [if_neg (by omega)]
    exact h.fresh q (by omega)

theorem move_agree {B : Nat} {σ : World} {s : Pool} (h : Agree B σ s) {x y : Nat} {o : Obj} {v : Bits} (hxy : x ≠ y) (ho : σ.obj y = some o) (hv : s y = some v) {f : Nat → Option Obj}
    (hfx : f x = some o) (hfy : f y = some ⟨0, none⟩) (hf : ∀ z, z ≠ x → z ≠ y → f z = σ.obj z) : Agree B { σ with obj := f } ((s.put x (some v)).put y (some .gone)) := by
  have hpx : ((s.put x (some v)).put y (some .gone)) x = some v := by rw [pool_ne _ _ hxy, pool_same]
  have hpz : ∀ z, z ≠ x → z ≠ y → ((s.put x (some v)).put y (some .gone)) z = s z := fun z h1 h2 => by rw [pool_ne _ _ h2, pool_ne _ _ h1]
  refine ⟨?_, ?_, ?_, h.fresh⟩
  · intro z
    show f z = none ↔ _
    by_cases h1 : z = x
    · rw [h1, hfx, hpx]; simp
    · by_cases h2 : z = y
      · rw [h2, hfy, pool_same]; simp
      · rw [hf z h1 h2, hpz z h1 h2]; exact h.dead z
  · intro z o1 v1 ho1 hv1
    have ho1 : f z = _ := ho1
    by_cases h1 : z = x
    · rw [h1, hfx] at ho1; rw [h1, hpx] at hv1
      cases ho1; cases hv1
      exact h.live y _ _ ho hv
    · by_cases h2 : z = y
      · rw [h2, hfy] at ho1; rw [h2, pool_same] at hv1
        cases ho1; cases hv1
        exact holds_gone B _
      · rw [hf z h1 h2] at ho1; rw [hpz z h1 h2] at hv1
        exact h.live z _ _ ho1 hv1
  · have key : ∀ z o1 p, f z = some o1 → o1.data = some p → ∃ z', σ.obj z' = some o1 ∧ (z = if z' = y then x else z') := by
      intro z o1 p hz hp
      by_cases h1 : z = x
      · rw [h1, hfx] at hz; cases hz
        exact ⟨y, ho, by rw [if_pos rfl, h1]⟩
      · by_cases h2 : z = y
        · rw [h2, hfy] at hz; cases hz; cases hp
        · rw [hf z h1 h2] at hz
          exact ⟨z, hz, by rw [if_neg h2]⟩
    intro z z' o1 o2 p hz hz' hp hp'
    obtain ⟨a, ha, e⟩ := key z o1 p hz hp
    obtain ⟨b, hb, e'⟩ := key z' o2 p hz' hp'
    rw [e, e', h.alone a b o1 o2 p ha hb hp hp']

theorem theWords_ok {B : Nat} {σ : World} {s : Pool} (h : Agree B σ s) {x i : Nat} {v : Bits} (hx : s x = some v) (hi : i < v.size) (hr : v.ready = true) :
    ∃ o p w, σ.obj x = some o ∧ o.data = some p ∧ Holds B σ.heap o v ∧ theWords σ x = .ok (p, w) ∧ w.length = BitVec'.words B v.size ∧ BitVec'.Fits B w ∧ ∀ i, i < v.size → BitVec'.bitAt B w i = v.mem i := by
  obtain ⟨o, ho, hh⟩ := h.obj hx
  cases hd : o.data with
  | none => have := hh.null hd; omega
  | some p =>
    obtain ⟨b, hb, hl, hw⟩ := hh.block p hd
    obtain ⟨w, rfl, hfit, hbits⟩ := hw hr
    refine ⟨o, p, w, ho, hd, hh, ?_, hl, hfit, hbits⟩
    unfold theWords theObj
    rw [ho]
    simp only [res_bind_ok]
    rw [hd]
    dsimp only
    unfold theBlock
    rw [hb]
    rfl

theorem decide_ne {r : Nat} {b : Bool} (h : r ≠ 0 ↔ b = true) : decide (r ≠ 0) = b := by
  cases b with
  | true => exact decide_eq_true (h.mpr rfl)
  | false => exact decide_eq_false (fun hc => by cases h.mp hc)

theorem step_agree {B : Nat} (hB : 0 < B) {σ : World} {s s' : Pool} {op : BitsOp} {r : Option Bool} (h : Agree B σ s) (hop : op.run s = some (s', r)) :
    ∃ σ', step B σ op = .ok (σ', r) ∧ Agree B σ' s' := by
  cases op with
  | construct x n init =>
    simp only [BitsOp.run] at hop
    by_cases hx : (s x).isNone = true
    · rw [if_pos hx] at hop
      cases hop
      have hx : s x = none := Option.isNone_iff_eq_none.mp hx
      have hraw := raw_agree h n hx
      cases init with
      | false => exact ⟨_, rfl, hraw⟩
      | true =>
        obtain ⟨σ', h1, h2⟩ := clear_agree hraw (pool_same s x _)
        refine ⟨σ', ?_, ?_⟩
        · show (do return (← construct B σ x n true, none) : Res (World × Option Bool)) = _
          have : construct B σ x n true = .ok σ' := h1
          rw [this]; rfl
        · have : (s.put x (some ⟨n, false, fun _ => false, false⟩)).put x (some ⟨n, true, fun _ => false, false⟩) = s.put x (some ⟨n, true, fun _ => false, false⟩) := by
            funext y; unfold Pool.put; split <;> rfl
          rw [← this]; exact h2
    · rw [if_neg hx] at hop; cases hop
  | moveConstruct x y =>
    simp only [BitsOp.run] at hop
    cases hx : s x with
    | some v0 => rw [hx] at hop; cases hop
    | none =>
      cases hy : s y with
      | none => rw [hx, hy] at hop; cases hop
      | some v =>
        rw [hx, hy] at hop
        cases hop
        have hxy : x ≠ y := by rintro rfl; rw [hx] at hy; cases hy
        obtain ⟨o, ho, -⟩ := h.obj hy
        refine ⟨_, ?_, move_agree h hxy ho hy (f := putObj (putObj (putObj σ.obj y (some ⟨0, o.data⟩)) y (some ⟨0, none⟩)) x (some ⟨o.bits, o.data⟩)) ?_ ?_ ?_⟩
        · show (do return (← moveConstruct σ x y, none) : Res (World × Option Bool)) = _
          unfold moveConstruct theObj
          rw [ho]; rfl
        · rw [putObj_same]
        · rw [putObj_ne _ _ (Ne.symm hxy), putObj_same]
        · intro z h1 h2
          rw [putObj_ne _ _ h1, putObj_ne _ _ h2, putObj_ne _ _ h2]
  | moveAssign x y =>
    simp only [BitsOp.run] at hop
    cases hx : s x with
    | none => rw [hx] at hop; cases hop
    | some v0 =>
      cases hy : s y with
      | none => rw [hx, hy] at hop; cases hop
      | some v =>
        rw [hx, hy] at hop
        cases hop
        obtain ⟨o0, ho0, -⟩ := h.obj hx
        obtain ⟨o, ho, -⟩ := h.obj hy
        by_cases hxy : x = y
        · subst hxy
          rw [if_pos rfl]
          refine ⟨σ, ?_, h⟩
          show (do return (← moveAssign σ x x, none) : Res (World × Option Bool)) = _
          have h1 : moveAssign σ x x = .ok { σ with obj := putObj (putObj (putObj (putObj σ.obj x (some ⟨0, o.data⟩)) x (some ⟨o.bits, o.data⟩)) x (some ⟨o.bits, none⟩)) x (some ⟨o.bits, o.data⟩) } := by
            unfold moveAssign theObj
            simp [ho, putObj_same]
          rw [h1]
          have h2 : putObj (putObj (putObj (putObj σ.obj x (some ⟨0, o.data⟩)) x (some ⟨o.bits, o.data⟩)) x (some ⟨o.bits, none⟩)) x (some ⟨o.bits, o.data⟩) = σ.obj := by
            funext z
            by_cases hz : z = x
            · rw [hz, putObj_same, ho]
            · rw [putObj_ne _ _ hz, putObj_ne _ _ hz, putObj_ne _ _ hz, putObj_ne _ _ hz]
          rw [h2]; rfl
        · rw [if_neg hxy]
          have hyx : y ≠ x := fun e => hxy e.symm
          refine ⟨_, ?_, move_agree h hxy ho hy (f := putObj (putObj (putObj (putObj σ.obj y (some ⟨0, o.data⟩)) x (some ⟨o.bits, o0.data⟩)) y (some ⟨0, none⟩)) x (some ⟨o.bits, o.data⟩)) ?_ ?_ ?_⟩
          · show (do return (← moveAssign σ x y, none) : Res (World × Option Bool)) = _
            unfold moveAssign theObj
            simp [ho, ho0, putObj_same, putObj_ne _ _ hxy, putObj_ne _ _ hyx]
          · rw [putObj_same]
          · rw [putObj_ne _ _ hyx, putObj_same]
          · intro z h1 h2
            rw [putObj_ne _ _ h1, putObj_ne _ _ h2, putObj_ne _ _ h1, putObj_ne _ _ h2]
  | clear x =>
    simp only [BitsOp.run] at hop
    cases hx : s x with
    | none => rw [hx] at hop; cases hop
    | some v =>
      rw [hx] at hop
      cases hop
      obtain ⟨σ', h1, h2⟩ := clear_agree h hx
      refine ⟨σ', ?_, h2⟩
      show (do return (← clear B σ x, none) : Res (World × Option Bool)) = _
      rw [h1]; rfl
  | get x i =>
    simp only [BitsOp.run] at hop
    cases hx : s x with
    | none => rw [hx] at hop; cases hop
    | some v =>
      rw [hx] at hop
      dsimp only at hop
      by_cases hc : i < v.size ∧ v.ready = true
      · rw [if_pos hc] at hop
        cases hop
        obtain ⟨o, p, w, -, -, -, hw, hl, hfit, hbits⟩ := theWords_ok h hx hc.1 hc.2
        obtain ⟨r, hr1, hr2⟩ := BitVec'.get_ok hB (v := w) (i := i) (by rw [hl]; exact BitVec'.index_in_words hB hc.1)
        refine ⟨σ, ?_, h⟩
        have hg : get B σ x i = .ok r := by unfold get; rw [hw]; exact hr1
        show (do return (σ, some (decide ((← get B σ x i) ≠ 0))) : Res (World × Option Bool)) = _
        rw [hg]
        show Except.ok (σ, some (decide (r ≠ 0))) = _
        rw [decide_ne (by rw [hr2, hbits i hc.1])]
      · rw [if_neg hc] at hop; cases hop
  | set x i =>
    simp only [BitsOp.run] at hop
    cases hx : s x with
    | none => rw [hx] at hop; cases hop
    | some v =>
      rw [hx] at hop
      dsimp only at hop
      by_cases hc : i < v.size ∧ v.ready = true
      · rw [if_pos hc] at hop
        cases hop
        obtain ⟨o, p, w, ho, hd, hh, hw, hl, hfit, hbits⟩ := theWords_ok h hx hc.1 hc.2
        obtain ⟨r, w', hr1, hr2, hl', hfit', hbits'⟩ := BitVec'.set_ok hB hfit (i := i) (by rw [hl]; exact BitVec'.index_in_words hB hc.1)
        refine ⟨{ σ with heap := putBlock σ.heap p (some (.words w')) }, ?_, h.write ho hd ?_⟩
        · have hg : set B σ x i = .ok (r, { σ with heap := putBlock σ.heap p (some (.words w')) }) := by
            unfold set
            rw [hw]
            show (do let (r, v') ← BitVec'.set B w i; _ : Res (Nat × World)) = _
            rw [hr1]; rfl
          show (do let (r, σ') ← set B σ x i; return (σ', some (decide (r ≠ 0))) : Res (World × Option Bool)) = _
          rw [hg]
          show Except.ok (_, some (decide (r ≠ 0))) = _
          rw [decide_ne (by rw [hr2, hbits i hc.1])]
        · refine ⟨hh.size, hh.moved, hh.null, ?_⟩
          intro q hq
          have hqp : q = p := by rw [hd] at hq; exact (Option.some.inj hq).symm
          subst hqp
          refine ⟨.words w', by unfold putBlock; rw [if_pos rfl], by rw [← hl]; exact hl', fun _ => ⟨w', rfl, hfit', ?_⟩⟩
          intro j hj
          rw [hbits' j, hbits j hj]
      · rw [if_neg hc] at hop; cases hop
  | destroy x =>
    simp only [BitsOp.run] at hop
    cases hx : s x with
    | none => rw [hx] at hop; cases hop
    | some v =>
      rw [hx] at hop
      cases hop
      obtain ⟨o, ho, hh⟩ := h.obj hx
      have common : ∀ heap', (∀ y o', σ.obj y = some o' → y ≠ x → ∀ p, o'.data = some p → heap' p = σ.heap p) → (∀ p, σ.next ≤ p → heap' p = none) →
          Agree B { σ with obj := putObj σ.obj x none, heap := heap' } (s.put x none) := by
        intro heap' h1 h2
        refine ⟨?_, ?_, ?_, h2⟩
        · intro y
          show putObj _ _ _ _ = _ ↔ _
          by_cases hy : y = x
          · rw [hy, putObj_same, pool_same]; simp
          · rw [putObj_ne _ _ hy, pool_ne _ _ hy]; exact h.dead y
        · intro y o1 v1 ho1 hv1
          have ho1 : putObj _ _ _ _ = _ := ho1
          by_cases hy : y = x
          · rw [hy, putObj_same] at ho1; cases ho1
          · rw [putObj_ne _ _ hy] at ho1
            rw [pool_ne _ _ hy] at hv1
            exact (h.live y o1 v1 ho1 hv1).frame (h1 y o1 ho1 hy)
        · intro y z o1 o2 p hy hz hp hp'
          have hy : putObj _ _ _ _ = _ := hy
          have hz : putObj _ _ _ _ = _ := hz
          by_cases e1 : y = x
          · rw [e1, putObj_same] at hy; cases hy
          · by_cases e2 : z = x
            · rw [e2, putObj_same] at hz; cases hz
            · rw [putObj_ne _ _ e1] at hy
              rw [putObj_ne _ _ e2] at hz
              exact h.alone y z o1 o2 p hy hz hp hp'
      cases hd : o.data with
      | none =>
        refine ⟨_, ?_, common σ.heap (fun _ _ _ _ _ _ => rfl) h.fresh⟩
        show (do return (← destroy σ x, none) : Res (World × Option Bool)) = _
        unfold destroy theObj
        simp [ho, hd]
      | some p =>
        obtain ⟨b, hb, -⟩ := hh.block p hd
        refine ⟨_, ?_, common (putBlock σ.heap p none) ?_ ?_⟩
        · show (do return (← destroy σ x, none) : Res (World × Option Bool)) = _
          unfold destroy theObj theBlock
          simp [ho, hd, hb]
        · intro y o' hy hne q hq
          unfold putBlock
          have hqp : q ≠ p := fun e => hne (h.alone y x o' o p hy ho (e ▸ hq) hd)
          rw [if_neg hqp]
        · intro q hq
          unfold putBlock
          split
          · rfl
          · exact h.fresh q hq

theorem agree_start (B : Nat) : Agree B World.start Pool.none :=
  ⟨fun _ => ⟨fun _ => rfl, fun _ => rfl⟩, (fun x o v ho _ => by cases ho), (fun x y o o' p hx => by cases hx), fun _ _ => rfl⟩

theorem run_agree {B : Nat} (hB : 0 < B) {s s' : Pool} {ops : List BitsOp} {rs : List (Option Bool)} (hr : BitsRuns s ops rs s') : ∀ {σ : World}, Agree B σ s → ∃ σ', run B σ ops = .ok (σ', rs) ∧ Agree B σ' s' := by
  induction hr with
  | done s => exact fun h => ⟨_, rfl, h⟩
  | step h1 _ ih =>
    intro σ h
    obtain ⟨σ1, e1, h2⟩ := step_agree hB h h1
    obtain ⟨σ2, e2, h3⟩ := ih h2
    refine ⟨σ2, ?_, h3⟩
    unfold run
    rw [e1]
    show (do let (σ2, rs) ← run B σ1 _; _ : Res (World × List (Option Bool))) = _
    rw [e2]; rfl

/-- **C136.** Whatever a program does with any number of bit vectors, every call returns what it returns for vectors that are values of their own; no array is used after it was deleted, deleted twice, or used outside its bounds or before it has values. -/
theorem bit_vectors_are_values {B : Nat} (hB : 0 < B) {ops : List BitsOp} {rs : List (Option Bool)} {s : Pool} (h : BitsRuns Pool.none ops rs s) : ∃ σ, run B World.start ops = .ok (σ, rs) ∧ ∀ x, σ.obj x = none ↔ s x = none := by
  obtain ⟨σ, h1, h2⟩ := run_agree hB h (agree_start B)
  exact ⟨σ, h1, h2.dead⟩

/-! ## Memory -/

/-- Some object owns the array. -/
def Owned (σ : World) (p : Nat) : Prop := ∃ x o, σ.obj x = some o ∧ o.data = some p

/-- The array has not been deleted, and no object owns it: nothing can delete it. -/
def Lost (σ : World) (p : Nat) : Prop := σ.heap p ≠ none ∧ ¬ Owned σ p

/-- No memory is lost. -/
def Tidy (σ : World) : Prop := ∀ p, ¬ Lost σ p

theorem clear_shape {B : Nat} {σ σ' : World} {x : Nat} (h : clear B σ x = .ok σ') : σ'.obj = σ.obj ∧ ∀ p, σ'.heap p = none ↔ σ.heap p = none := by
  unfold clear theObj theBlock at h
  cases ho : σ.obj x with
  | none => rw [ho] at h; cases h
  | some o =>
    rw [ho] at h
    simp only [res_bind_ok] at h
    cases hd : o.data with
    | none =>
      rw [hd] at h
      dsimp only at h
      split at h
      · cases h; exact ⟨rfl, fun _ => Iff.rfl⟩
      · cases h
    | some p =>
      rw [hd] at h
      dsimp only at h
      cases hb : σ.heap p with
      | none => rw [hb] at h; cases h
      | some b =>
        rw [hb] at h
        simp only [res_bind_ok] at h
        split at h
        · cases h
          refine ⟨rfl, fun q => ?_⟩
          show putBlock _ _ _ _ = _ ↔ _
          unfold putBlock
          by_cases hq : q = p
          · rw [if_pos hq, hq, hb]; simp
          · rw [if_neg hq]
        · cases h

theorem set_shape {B : Nat} {σ σ' : World} {x i r : Nat} (h : set B σ x i = .ok (r, σ')) : σ'.obj = σ.obj ∧ ∀ p, σ'.heap p = none ↔ σ.heap p = none := by
  unfold set theWords theObj theBlock at h
  cases ho : σ.obj x with
  | none => rw [ho] at h; cases h
  | some o =>
    rw [ho] at h
    simp only [res_bind_ok] at h
    cases hd : o.data with
    | none => rw [hd] at h; cases h
    | some p =>
      rw [hd] at h
      dsimp only at h
      cases hb : σ.heap p with
      | none => rw [hb] at h; cases h
      | some b =>
        rw [hb] at h
        cases b with
        | raw n => cases h
        | words v =>
          simp only [res_bind_ok, res_pure] at h
          cases hs : BitVec'.set B v i with
          | error e => rw [hs] at h; cases h
          | ok rv =>
            rw [hs] at h
            cases h
            refine ⟨rfl, fun q => ?_⟩
            show putBlock _ _ _ _ = _ ↔ _
            unfold putBlock
            by_cases hq : q = p
            · rw [if_pos hq, hq, hb]; simp
            · rw [if_neg hq]

theorem construct_shape {B : Nat} {σ σ' : World} {x n : Nat} {init : Bool} (h : construct B σ x n init = .ok σ') :
    σ'.obj = putObj σ.obj x (some ⟨n, some σ.next⟩) ∧ ∀ p, σ'.heap p = none ↔ p ≠ σ.next ∧ σ.heap p = none := by
  have raw : ∀ p, putBlock σ.heap σ.next (some (.raw (BitVec'.words B n))) p = none ↔ p ≠ σ.next ∧ σ.heap p = none := by
    intro p
    unfold putBlock
    by_cases hp : p = σ.next
    · rw [if_pos hp]; simp [hp]
    · rw [if_neg hp]; simp [hp]
  cases init with
  | false => cases h; exact ⟨rfl, raw⟩
  | true =>
    obtain ⟨h1, h2⟩ := clear_shape h
    exact ⟨h1, fun p => (h2 p).trans (raw p)⟩

theorem destroy_shape {σ σ' : World} {x : Nat} (h : destroy σ x = .ok σ') : ∃ o, σ.obj x = some o ∧ σ'.obj = putObj σ.obj x none ∧ ∀ p, σ'.heap p = none ↔ σ.heap p = none ∨ o.data = some p := by
  unfold destroy theObj theBlock at h
  cases ho : σ.obj x with
  | none => rw [ho] at h; cases h
  | some o =>
    rw [ho] at h
    simp only [res_bind_ok] at h
    refine ⟨o, rfl, ?_⟩
    cases hd : o.data with
    | none =>
      rw [hd] at h
      cases h
      exact ⟨rfl, fun p => by simp⟩
    | some p =>
      rw [hd] at h
      dsimp only at h
      cases hb : σ.heap p with
      | none => rw [hb] at h; cases h
      | some b =>
        rw [hb] at h
        cases h
        refine ⟨rfl, fun q => ?_⟩
        show putBlock _ _ _ _ = _ ↔ _
        unfold putBlock
        by_cases hq : q = p
        · rw [if_pos hq]; simp [hq]
        · rw [if_neg hq]
          constructor
          · exact Or.inl
          · rintro (h1 | h1)
            · exact h1
            · exact absurd (Option.some.inj h1).symm hq

theorem moveConstruct_shape {σ σ' : World} {x y : Nat} (hxy : x ≠ y) (h : moveConstruct σ x y = .ok σ') :
    ∃ o, σ.obj y = some o ∧ σ'.heap = σ.heap ∧ σ'.obj x = some o ∧ σ'.obj y = some ⟨0, none⟩ ∧ ∀ z, z ≠ x → z ≠ y → σ'.obj z = σ.obj z := by
  unfold moveConstruct theObj at h
  cases ho : σ.obj y with
  | none => rw [ho] at h; cases h
  | some o =>
    rw [ho] at h
    cases h
    refine ⟨o, rfl, rfl, putObj_same _ _ _, ?_, ?_⟩
    · exact (putObj_ne _ _ (Ne.symm hxy)).trans (putObj_same _ _ _)
    · intro z h1 h2
      exact (putObj_ne _ _ h1).trans ((putObj_ne _ _ h2).trans (putObj_ne _ _ h2))

theorem moveAssign_shape {σ σ' : World} {x y : Nat} (hxy : x ≠ y) (h : moveAssign σ x y = .ok σ') :
    ∃ o, σ.obj y = some o ∧ σ'.heap = σ.heap ∧ σ'.obj x = some o ∧ σ'.obj y = some ⟨0, none⟩ ∧ ∀ z, z ≠ x → z ≠ y → σ'.obj z = σ.obj z := by
  have hyx : y ≠ x := fun e => hxy e.symm
  cases ho : σ.obj y with
  | none => unfold moveAssign theObj at h; rw [ho] at h; cases h
  | some o =>
    cases ho0 : σ.obj x with
    | none => unfold moveAssign theObj at h; simp [ho, ho0, putObj_ne _ _ hxy] at h
    | some o0 =>
      have h1 : moveAssign σ x y = .ok { σ with obj := putObj (putObj (putObj (putObj σ.obj y (some ⟨0, o.data⟩)) x (some ⟨o.bits, o0.data⟩)) y (some ⟨0, none⟩)) x (some ⟨o.bits, o.data⟩) } := by
        unfold moveAssign theObj
        simp [ho, ho0, putObj_same, putObj_ne _ _ hxy, putObj_ne _ _ hyx]
      rw [h1] at h
      cases h
      refine ⟨o, rfl, rfl, putObj_same _ _ _, (putObj_ne _ _ hyx).trans (putObj_same _ _ _), ?_⟩
      intro z h1 h2
      exact (putObj_ne _ _ h1).trans ((putObj_ne _ _ h2).trans ((putObj_ne _ _ h1).trans (putObj_ne _ _ h2)))

theorem moveAssign_self {σ σ' : World} {x : Nat} (h : moveAssign σ x x = .ok σ') : σ' = σ := by
  cases ho : σ.obj x with
  | none => unfold moveAssign theObj at h; rw [ho] at h; cases h
  | some o =>
    have h1 : moveAssign σ x x = .ok { σ with obj := putObj (putObj (putObj (putObj σ.obj x (some ⟨0, o.data⟩)) x (some ⟨o.bits, o.data⟩)) x (some ⟨o.bits, none⟩)) x (some ⟨o.bits, o.data⟩) } := by
      unfold moveAssign theObj
      simp [ho, putObj_same]
    rw [h1] at h
    have h2 : putObj (putObj (putObj (putObj σ.obj x (some ⟨0, o.data⟩)) x (some ⟨o.bits, o.data⟩)) x (some ⟨o.bits, none⟩)) x (some ⟨o.bits, o.data⟩) = σ.obj := by
      funext z
      by_cases hz : z = x
      · rw [hz, putObj_same, ho]
      · rw [putObj_ne _ _ hz, putObj_ne _ _ hz, putObj_ne _ _ hz, putObj_ne _ _ hz]
    rw [h2] at h
    cases h; rfl

/-- Moving from `y` to `x`: the array of `x` is no longer owned, and all others are as before. -/
theorem owned_move {σ σ' : World} {x y : Nat} (hxy : x ≠ y) {o : Obj} (ho : σ.obj y = some o) (hx : σ'.obj x = some o) (hy : σ'.obj y = some ⟨0, none⟩) (hz : ∀ z, z ≠ x → z ≠ y → σ'.obj z = σ.obj z) (p : Nat) :
    Owned σ' p ↔ ∃ z oz, z ≠ x ∧ σ.obj z = some oz ∧ oz.data = some p := by
  constructor
  · rintro ⟨z, oz, h1, h2⟩
    by_cases e1 : z = x
    · rw [e1, hx] at h1; cases h1
      exact ⟨y, o, fun e => hxy e.symm, ho, h2⟩
    · by_cases e2 : z = y
      · rw [e2, hy] at h1; cases h1; cases h2
      · rw [hz z e1 e2] at h1
        exact ⟨z, oz, e1, h1, h2⟩
  · rintro ⟨z, oz, e1, h1, h2⟩
    by_cases e2 : z = y
    · rw [e2, ho] at h1; cases h1
      exact ⟨x, o, hx, h2⟩
    · exact ⟨z, oz, by rw [hz z e1 e2]; exact h1, h2⟩

/-- What one operation does to lost memory: what was lost remains lost, and an array gets lost exactly if another vector is assigned to its owner. -/
theorem step_lost {B : Nat} {σ σ' : World} {s s' : Pool} {op : BitsOp} {r r' : Option Bool} (h : Agree B σ s) (hop : op.run s = some (s', r')) (hs : step B σ op = .ok (σ', r)) (p : Nat) :
    Lost σ' p ↔ Lost σ p ∨ ∃ x y o, op = .moveAssign x y ∧ x ≠ y ∧ σ.obj x = some o ∧ o.data = some p := by
  have same : ∀ {τ : World}, τ.obj = σ.obj → (∀ q, τ.heap q = none ↔ σ.heap q = none) → (Lost τ p ↔ Lost σ p) := by
    intro τ h1 h2
    unfold Lost Owned
    rw [h1, Ne, h2 p]
  have heapOf : ∀ x o, σ.obj x = some o → o.data = some p → σ.heap p ≠ none := by
    intro x o hx hp hn
    have := h.below hx hp
    cases hv : s x with
    | none => rw [(h.dead x).mpr hv] at hx; cases hx
    | some v =>
      obtain ⟨b, hb, -⟩ := (h.live x o v hx hv).block p hp
      rw [hb] at hn; cases hn
  have notAssign : (∀ x y, op ≠ .moveAssign x y) → (Lost σ' p ↔ Lost σ p) → (Lost σ' p ↔ Lost σ p ∨ ∃ x y o, op = .moveAssign x y ∧ x ≠ y ∧ σ.obj x = some o ∧ o.data = some p) := by
    intro h1 h2
    rw [h2]
    constructor
    · exact Or.inl
    · rintro (h3 | ⟨x, y, o, h3, -⟩)
      · exact h3
      · exact absurd h3 (h1 x y)
  cases op with
  | construct x n init =>
    apply notAssign (by intros; exact fun e => by cases e)
    have hx : σ.obj x = none := by
      simp only [BitsOp.run] at hop
      by_cases hc : (s x).isNone = true
      · exact (h.dead x).mpr (Option.isNone_iff_eq_none.mp hc)
      · rw [if_neg hc] at hop; cases hop
    simp only [step] at hs
    cases hc : construct B σ x n init with
    | error e => rw [hc] at hs; cases hs
    | ok τ =>
      rw [hc] at hs
      cases hs
      obtain ⟨h1, h2⟩ := construct_shape hc
      unfold Lost
      rw [Ne, h2 p]
      have hown : p ≠ σ.next → (Owned σ' p ↔ Owned σ p) := by
        intro hp
        unfold Owned
        rw [h1]
        constructor
        · rintro ⟨z, o, e1, e2⟩
          by_cases hz : z = x
          · rw [hz, putObj_same] at e1; cases e1
            exact absurd (Option.some.inj e2).symm hp
          · rw [putObj_ne _ _ hz] at e1
            exact ⟨z, o, e1, e2⟩
        · rintro ⟨z, o, e1, e2⟩
          have hz : z ≠ x := by rintro rfl; rw [hx] at e1; cases e1
          exact ⟨z, o, by rw [putObj_ne _ _ hz]; exact e1, e2⟩
      by_cases hp : p = σ.next
      · constructor
        · rintro ⟨-, h3⟩
          exact absurd ⟨x, _, by rw [h1]; exact putObj_same _ _ _, by rw [hp]⟩ h3
        · rintro ⟨h3, -⟩
          exact absurd (h.fresh p (by omega)) h3
      · rw [hown hp]
        simp [hp]
  | moveConstruct x y =>
    apply notAssign (by intros; exact fun e => by cases e)
    simp only [BitsOp.run] at hop
    have hx : s x = none := by
      cases hx : s x with
      | none => rfl
      | some v => rw [hx] at hop; cases hop
    have hxy : x ≠ y := by
      rintro rfl
      rw [hx] at hop; cases hop
    simp only [step] at hs
    cases hc : moveConstruct σ x y with
    | error e => rw [hc] at hs; cases hs
    | ok τ =>
      rw [hc] at hs
      cases hs
      obtain ⟨o, ho, hh, h1, h2, h3⟩ := moveConstruct_shape hxy hc
      unfold Lost
      rw [hh, owned_move hxy ho h1 h2 h3 p]
      have : (∃ z oz, z ≠ x ∧ σ.obj z = some oz ∧ oz.data = some p) ↔ Owned σ p := by
        constructor
        · rintro ⟨z, oz, -, e1, e2⟩; exact ⟨z, oz, e1, e2⟩
        · rintro ⟨z, oz, e1, e2⟩
          refine ⟨z, oz, ?_, e1, e2⟩
          rintro rfl
          rw [(h.dead z).mpr hx] at e1; cases e1
      rw [this]
  | moveAssign x y =>
    simp only [step] at hs
    cases hc : moveAssign σ x y with
    | error e => rw [hc] at hs; cases hs
    | ok τ =>
      rw [hc] at hs
      cases hs
      by_cases hxy : x = y
      · subst hxy
        rw [moveAssign_self hc]
        constructor
        · exact Or.inl
        · rintro (h3 | ⟨a, b, o, h3, h4, -⟩)
          · exact h3
          · cases h3; exact absurd rfl h4
      · obtain ⟨o, ho, hh, h1, h2, h3⟩ := moveAssign_shape hxy hc
        unfold Lost
        rw [hh, owned_move hxy ho h1 h2 h3 p]
        constructor
        · rintro ⟨e1, e2⟩
          by_cases hown : Owned σ p
          · obtain ⟨z, oz, f1, f2⟩ := hown
            by_cases hz : z = x
            · subst hz
              exact Or.inr ⟨z, y, oz, rfl, hxy, f1, f2⟩
            · exact absurd ⟨z, oz, hz, f1, f2⟩ e2
          · exact Or.inl ⟨e1, hown⟩
        · rintro (⟨e1, e2⟩ | ⟨a, b, oa, e1, -, e2, e3⟩)
          · exact ⟨e1, fun ⟨z, oz, _, f1, f2⟩ => e2 ⟨z, oz, f1, f2⟩⟩
          · cases e1
            exact ⟨heapOf x oa e2 e3, fun ⟨z, oz, f0, f1, f2⟩ => f0 (h.alone z x oz oa p f1 e2 f2 e3)⟩
  | clear x =>
    apply notAssign (by intros; exact fun e => by cases e)
    simp only [step] at hs
    cases hc : clear B σ x with
    | error e => rw [hc] at hs; cases hs
    | ok τ =>
      rw [hc] at hs
      cases hs
      exact same (clear_shape hc).1 (clear_shape hc).2
  | get x i =>
    apply notAssign (by intros; exact fun e => by cases e)
    simp only [step] at hs
    cases hc : get B σ x i with
    | error e => rw [hc] at hs; cases hs
    | ok τ =>
      rw [hc] at hs
      cases hs
      exact Iff.rfl
  | set x i =>
    apply notAssign (by intros; exact fun e => by cases e)
    simp only [step] at hs
    cases hc : set B σ x i with
    | error e => rw [hc] at hs; cases hs
    | ok τ =>
      rw [hc] at hs
      cases hs
      exact same (set_shape hc).1 (set_shape hc).2
  | destroy x =>
    apply notAssign (by intros; exact fun e => by cases e)
    simp only [step] at hs
    cases hc : destroy σ x with
    | error e => rw [hc] at hs; cases hs
    | ok τ =>
      rw [hc] at hs
      cases hs
      obtain ⟨o, ho, h1, h2⟩ := destroy_shape hc
      unfold Lost
      rw [Ne, h2 p]
      constructor
      · rintro ⟨e1, e2⟩
        refine ⟨fun e => e1 (Or.inl e), ?_⟩
        rintro ⟨z, oz, f1, f2⟩
        by_cases hz : z = x
        · rw [hz, ho] at f1; cases f1
          exact e1 (Or.inr f2)
        · exact e2 ⟨z, oz, by rw [h1, putObj_ne _ _ hz]; exact f1, f2⟩
      · rintro ⟨e1, e2⟩
        refine ⟨?_, ?_⟩
        · rintro (e3 | e3)
          · exact e1 e3
          · exact e2 ⟨x, o, ho, e3⟩
        · rintro ⟨z, oz, f1, f2⟩
          rw [h1] at f1
          by_cases hz : z = x
          · rw [hz, putObj_same] at f1; cases f1
          · rw [putObj_ne _ _ hz] at f1
            exact e2 ⟨z, oz, f1, f2⟩

theorem run_lost {B : Nat} (hB : 0 < B) {s s' : Pool} {ops : List BitsOp} {rs : List (Option Bool)} (hr : BitsRuns s ops rs s') : ∀ {σ σ' : World}, Agree B σ s → run B σ ops = .ok (σ', rs) →
    (∀ p, Lost σ p → Lost σ' p) ∧ (BitsCareful s ops → Tidy σ → Tidy σ') := by
  induction hr with
  | done s =>
    intro σ σ' h he
    cases he
    exact ⟨fun _ h => h, fun _ h => h⟩
  | @step s s1 s2 op r ops rs h1 hr ih =>
    intro σ σ' h he
    obtain ⟨σ1, e1, h2⟩ := step_agree hB h h1
    obtain ⟨σ2, e2, h3⟩ := run_agree hB hr h2
    have : run B σ (op :: ops) = .ok (σ2, r :: rs) := by
      simp only [run]
      rw [e1]
      simp only [res_bind_ok]
      rw [e2]; rfl
    rw [this] at he
    cases he
    obtain ⟨k1, k2⟩ := ih h2 e2
    refine ⟨fun p hp => k1 p ((step_lost h h1 e1 p).mpr (Or.inl hp)), ?_⟩
    intro hcare htidy
    cases hcare with
    | step h1' hc hrest =>
      rw [h1] at h1'
      cases h1'
      refine k2 hrest ?_
      intro p hp
      rcases (step_lost h h1 e1 p).mp hp with h4 | ⟨x, y, o, h4, h5, h6, h7⟩
      · exact htidy p h4
      · cases hv : s x with
        | none => rw [(h.dead x).mpr hv] at h6; cases h6
        | some v =>
          rcases hc x y v h4 hv with h8 | h8
          · exact h5 h8
          · rw [(h.live x o v h6 hv).moved] at h8
            rw [h8] at h7; cases h7

/-- **C136.** When all vectors have been destroyed, all memory has been given back.  Missing: programs that assign to a vector that has not been moved from; for them it is false (below). -/
theorem bit_vectors_free_partial {B : Nat} (hB : 0 < B) {ops : List BitsOp} {rs : List (Option Bool)} {s : Pool} (h : BitsRuns Pool.none ops rs s) (hc : BitsCareful Pool.none ops) (hend : ∀ x, s x = none) :
    ∃ σ, run B World.start ops = .ok (σ, rs) ∧ ∀ p, σ.heap p = none := by
  obtain ⟨σ, h1, h2⟩ := run_agree hB h (agree_start B)
  refine ⟨σ, h1, fun p => ?_⟩
  have ht := (run_lost hB h (agree_start B) h1).2 hc (fun q hq => hq.1 rfl) p
  cases hp : σ.heap p with
  | none => rfl
  | some b =>
    refine absurd ⟨by rw [hp]; simp, ?_⟩ ht
    rintro ⟨x, o, h3, -⟩
    rw [(h2.dead x).mpr (hend x)] at h3; cases h3

/-- **C136, false of the code:** move assignment does not delete the array that the vector had: whatever the program does afterwards, this memory is never given back. -/
theorem bit_vectors_leak_wrong {B : Nat} (hB : 0 < B) {ops ops' : List BitsOp} {rs rs' : List (Option Bool)} {s s1 s' : Pool} {x y : Nat} {v : Bits} (h : BitsRuns Pool.none ops rs s) (hxy : x ≠ y) (hx : s x = some v) (hm : v.moved = false)
    {r : Option Bool} (hop : (BitsOp.moveAssign x y).run s = some (s1, r)) (h' : BitsRuns s1 ops' rs' s') :
    ∃ σ p, run B World.start (ops ++ .moveAssign x y :: ops') = .ok (σ, rs ++ r :: rs') ∧ σ.heap p ≠ none ∧ ∀ z o, σ.obj z = some o → o.data ≠ some p := by
  obtain ⟨σ, e1, a1⟩ := run_agree hB h (agree_start B)
  obtain ⟨σ1, e2, a2⟩ := step_agree hB a1 hop
  obtain ⟨σ2, e3, a3⟩ := run_agree hB h' a2
  obtain ⟨o, ho, hh⟩ := a1.obj hx
  cases hd : o.data with
  | none => rw [hh.moved.mpr hd] at hm; cases hm
  | some p =>
    have hl : Lost σ1 p := (step_lost a1 hop e2 p).mpr (Or.inr ⟨x, y, o, rfl, hxy, ho, hd⟩)
    have hl2 := (run_lost hB h' a2 e3).1 p hl
    refine ⟨σ2, p, ?_, hl2.1, fun z oz h1 h2 => hl2.2 ⟨z, oz, h1, h2⟩⟩
    have app : ∀ (l1 l2 : List BitsOp) (a b c : World) (r1 r2 : List (Option Bool)), run B a l1 = .ok (b, r1) → run B b l2 = .ok (c, r2) → run B a (l1 ++ l2) = .ok (c, r1 ++ r2) := by
      intro l1
      induction l1 with
      | nil => intro l2 a b c r1 r2 h1 h2; cases h1; exact h2
      | cons op l1 ih =>
        intro l2 a b c r1 r2 h1 h2
        rw [List.cons_append]
        simp only [run] at h1 ⊢
        cases hs : step B a op with
        | error e => rw [hs] at h1; cases h1
        | ok sr =>
          rw [hs] at h1
          simp only [res_bind_ok] at h1 ⊢
          cases hq : run B sr.1 l1 with
          | error e => rw [hq] at h1; cases h1
          | ok q =>
            rw [hq] at h1
            cases h1
            rw [ih l2 sr.1 q.1 c q.2 r2 hq h2]
            rfl
    apply app _ _ _ _ _ _ _ e1
    simp only [run]
    rw [e2]
    simp only [res_bind_ok]
    rw [e3]; rfl

/-- **C136.** `std::swap(x, y)`, as in the direction-optimizing search (algorithms/bfs.hpp:207): the values are exchanged, and no memory is lost. -/
theorem bit_vectors_swap (s : Pool) {t x y : Nat} {vx vy : Bits} (hx : s x = some vx) (hy : s y = some vy) (ht : s t = none) (hxy : x ≠ y) :
    ∃ s', BitsRuns s [.moveConstruct t x, .moveAssign x y, .moveAssign y t, .destroy t] [none, none, none, none] s' ∧ BitsCareful s [.moveConstruct t x, .moveAssign x y, .moveAssign y t, .destroy t] ∧
      s' x = some vy ∧ s' y = some vx ∧ ∀ z, z ≠ x → z ≠ y → s' z = s z := by
  have htx : t ≠ x := by rintro rfl; rw [ht] at hx; cases hx
  have hty : t ≠ y := by rintro rfl; rw [ht] at hy; cases hy
  have hxt := htx.symm
  have hyt := hty.symm
  have hyx := hxy.symm
  have r1 : (BitsOp.moveConstruct t x).run s = some ((s.put t (some vx)).put x (some .gone), none) := by
    simp only [BitsOp.run]; rw [ht, hx]
  generalize hs1 : (s.put t (some vx)).put x (some .gone) = s1 at r1
  have a1 : s1 t = some vx := by rw [← hs1, pool_ne _ _ htx, pool_same]
  have a2 : s1 x = some .gone := by rw [← hs1, pool_same]
  have a3 : s1 y = some vy := by rw [← hs1, pool_ne _ _ hyx, pool_ne _ _ hyt, hy]
  have r2 : (BitsOp.moveAssign x y).run s1 = some ((s1.put x (some vy)).put y (some .gone), none) := by
    simp only [BitsOp.run]; rw [a2, a3]; simp only [if_neg hxy]
  generalize hs2 : (s1.put x (some vy)).put y (some .gone) = s2 at r2
  have b1 : s2 t = some vx := by rw [← hs2, pool_ne _ _ hty, pool_ne _ _ htx, a1]
  have b2 : s2 x = some vy := by rw [← hs2, pool_ne _ _ hxy, pool_same]
  have b3 : s2 y = some .gone := by rw [← hs2, pool_same]
  have r3 : (BitsOp.moveAssign y t).run s2 = some ((s2.put y (some vx)).put t (some .gone), none) := by
    simp only [BitsOp.run]; rw [b3, b1]; simp only [if_neg hyt]
  generalize hs3 : (s2.put y (some vx)).put t (some .gone) = s3 at r3
  have c1 : s3 t = some .gone := by rw [← hs3, pool_same]
  have r4 : (BitsOp.destroy t).run s3 = some (s3.put t none, none) := by
    simp only [BitsOp.run]; rw [c1]
  refine ⟨s3.put t none, .step r1 (.step r2 (.step r3 (.step r4 (.done _)))), ?_, ?_, ?_, ?_⟩
  · refine .step r1 (by intro a b v e; cases e) (.step r2 ?_ (.step r3 ?_ (.step r4 (by intro a b v e; cases e) (.done _))))
    · intro a b v e hv; cases e; rw [a2] at hv; cases hv; exact Or.inr rfl
    · intro a b v e hv; cases e; rw [b3] at hv; cases hv; exact Or.inr rfl
  · rw [pool_ne _ _ hxt, ← hs3, pool_ne _ _ hxt, pool_ne _ _ hxy, b2]
  · rw [pool_ne _ _ hyt, ← hs3, pool_ne _ _ hyt, pool_same]
  · intro z h1 h2
    by_cases hz : z = t
    · rw [hz, pool_same, ht]
    · rw [pool_ne _ _ hz, ← hs3, pool_ne _ _ hz, pool_ne _ _ h2, ← hs2, pool_ne _ _ h2, pool_ne _ _ h1, ← hs1, pool_ne _ _ h1, pool_ne _ _ hz]

/-! ## A concrete case: two vectors, of which one is moved to the other -/

example : ∃ s, BitsRuns Pool.none [.construct 0 70 true, .set 0 65, .construct 1 9 false, .clear 1, .moveAssign 1 0, .get 1 65, .destroy 0, .destroy 1] [none, some false, none, none, none, some true, none, none] s ∧ ∀ x, s x = none := by
  refine ⟨_, .step rfl (.step rfl (.step rfl (.step rfl (.step rfl (.step rfl (.step rfl (.step rfl (.done _)))))))), ?_⟩
  intro x
  by_cases h0 : x = 0
  · subst h0; rfl
  · by_cases h1 : x = 1
    · subst h1; rfl
    · simp [Pool.put, Pool.none, h0, h1]

example : BitsCareful Pool.none [.construct 0 70 true, .moveConstruct 1 0, .moveAssign 0 1, .destroy 0, .destroy 1] := by
  refine .step rfl (by intro a b v e; cases e) (.step rfl (by intro a b v e; cases e) (.step rfl ?_ (.step rfl (by intro a b v e; cases e) (.step rfl (by intro a b v e; cases e) (.done _)))))
  intro a b v e hv
  cases e
  cases hv
  exact Or.inr rfl

end NW.BitOwner
