import Verif.Model.Iterators
import Mathlib.Tactic.Ring

/-!
# C113: the iterators of edge lists, zipped ranges and graphs
-/

namespace NW.Iterators
open Spec

variable {w : Nat}

/-- The iterator at position `a` of the object `obj`. -/
def at_ (w obj a : Nat) : It w := ⟨BitVec.ofNat w a, obj⟩

theorem ofNat_add_ofInt {a b : Nat} {d : Int} (h : (a : Int) + d = b) : BitVec.ofNat w a + BitVec.ofInt w d = BitVec.ofNat w b := by
  rw [← BitVec.ofInt_natCast, ← BitVec.ofInt_natCast, ← BitVec.ofInt_add, h]

theorem ofNat_sub_ofInt {a b : Nat} {d : Int} (h : (a : Int) - d = b) : BitVec.ofNat w a - BitVec.ofInt w d = BitVec.ofNat w b := by
  have : (b : Int) + d = a := by omega
  rw [← ofNat_add_ofInt this, BitVec.add_sub_cancel]

theorem toNat_at {w obj a : Nat} (h : a < 2 ^ w) : (at_ w obj a).i.toNat = a := by
  simp [at_, Nat.mod_eq_of_lt h]

theorem at_eq_iff {w obj a b : Nat} (ha : a < 2 ^ w) (hb : b < 2 ^ w) : ((at_ w obj a).i == (at_ w obj b).i) = decide (a = b) := by
  rw [Bool.eq_iff_iff, beq_iff_eq, decide_eq_true_iff]
  constructor
  · intro h
    have := congrArg BitVec.toNat h
    rwa [toNat_at ha, toNat_at hb] at this
  · rintro rfl; rfl

theorem diff_at (obj : Nat) {a b : Nat} : diff (at_ w obj b) (at_ w obj a) = ((b : Int) - a).bmod (2 ^ w) := by
  have h : (at_ w obj b).i - (at_ w obj a).i = BitVec.ofInt w ((b : Int) - a) := by
    show BitVec.ofNat w b - BitVec.ofNat w a = _
    rw [BitVec.sub_eq_iff_eq_add, ← BitVec.ofInt_natCast, ← BitVec.ofInt_natCast, ← BitVec.ofInt_add]
    congr 1; omega
  rw [diff, h, BitVec.toInt_ofInt]

/-- The positions and the moves, which the classes have in common. -/
theorem moves (obj : Nat) :
    (∀ a, incr (at_ w obj a) = at_ w obj (a + 1)) ∧ (∀ a, decr (at_ w obj (a + 1)) = at_ w obj a) ∧
    (∀ (a b : Nat) (d : Int), (a : Int) + d = b → add (at_ w obj a) d = at_ w obj b) ∧
    (∀ (a b : Nat) (d : Int), (a : Int) - d = b → sub (at_ w obj a) d = at_ w obj b) := by
  refine ⟨fun a => ?_, fun a => ?_, fun a b d h => ?_, fun a b d h => ?_⟩
  · simp [incr, at_, BitVec.ofNat_add]
  · simp [decr, at_, BitVec.ofNat_add, BitVec.add_sub_cancel]
  · simp only [add, at_, ofNat_add_ofInt h]
  · simp only [sub, at_, ofNat_sub_ofInt h]

theorem distances_of_small {β : Type} (o : IterOps (It w) β) (ho : o.diff = diff) (n obj : Nat) (hn : 2 * n < 2 ^ w) : DiffIsDistance o n (at_ w obj) := by
  intro a b ha hb
  rw [ho, diff_at]
  apply Int.bmod_eq_of_le
  · have : ((2 ^ w : Nat) : Int) / 2 ≥ n := by omega
    omega
  · omega

variable {k : Nat} {τ : Fin (k + 1) → Type}

/-- C113 for `struct_of_arrays` (edge lists) and `zipped`: for every number of columns of any types and every length below `2 ^ w` (`w = 64`), the iterators from `begin()` to `end()` are at the positions `0`, …, `size()`;
they move, compare and read like random access iterators; they read all the columns at their position. -/
theorem soa_positions (c : Zip.Cols τ) (obj : Nat) (hn : Zip.size c < 2 ^ w) :
    Positions (soaOps c) (Zip.size c) (at_ w obj) (Zip.read c) ∧ beginSoa obj = at_ w obj 0 ∧ endSoa c obj = at_ w obj (Zip.size c) := by
  have hlt : ∀ a, a ≤ Zip.size c → a < 2 ^ w := fun a h => by omega
  have heq : ∀ a b, a ≤ Zip.size c → b ≤ Zip.size c → eqSoa (at_ w obj a) (at_ w obj b) = decide (a = b) := by
    intro a b ha hb
    rw [eqSoa, at_eq_iff (hlt a ha) (hlt b hb)]; simp [at_]
  have hl : ∀ a b, a ≤ Zip.size c → b ≤ Zip.size c → ltSoa (at_ w obj a) (at_ w obj b) = decide (a < b) := by
    intro a b ha hb
    rw [ltSoa, toNat_at (hlt a ha), toNat_at (hlt b hb)]; simp [at_]
  refine ⟨⟨fun a _ => (moves obj).1 a, fun a _ => (moves obj).2.1 a, fun a b d _ _ h => (moves obj).2.2.1 a b d h, fun a b d _ _ h => (moves obj).2.2.2 a b d h,
    heq, hl, fun a b ha hb => hl b a hb ha, fun a b ha hb => ?_, fun a b ha hb => ?_, fun a ha => ?_, fun a b d ha hb h => ?_⟩, rfl, ?_⟩
  · show (ltSoa _ _ || eqSoa _ _) = _
    rw [hl a b ha hb, heq a b ha hb, Bool.eq_iff_iff]; simp; omega
  · show (ltSoa _ _ || eqSoa _ _) = _
    rw [hl b a hb ha, heq a b ha hb, Bool.eq_iff_iff]; simp; omega
  · show Zip.read c _ = _
    rw [toNat_at (hlt a (by omega))]
  · show Zip.read c (BitVec.toNat (BitVec.ofNat w a + BitVec.ofInt w d)) = _
    rw [ofNat_add_ofInt h]
    exact congrArg _ (toNat_at (obj := obj) (hlt b (by omega)))
  · exact (moves obj).2.2.1 0 _ _ (by simp)

/-- Their differences are the distances up to half the range of the index: `end() - begin()` is `size()`. -/
theorem soa_distances (c : Zip.Cols τ) (obj : Nat) (hn : 2 * Zip.size c < 2 ^ w) : DiffIsDistance (soaOps (w := w) c) (Zip.size c) (at_ w obj) :=
  distances_of_small _ rfl _ _ hn

example : let c : Zip.Cols (fun _ : Fin 2 => Nat) := fun i => if i = 0 then [5, 6, 7] else [1, 0, 2]
    Zip.size c < 2 ^ 64 ∧ 2 * Zip.size c < 2 ^ 64 ∧ ((soaOps (w := 64) c).at_ (endSoa c 0) (-1)).map (fun t => (t 0, t 1)) = .ok (7, 2) := by decide

variable {α : Type}

/-- C113 for the vertices of a compressed graph whose offsets are numbered by an index type with `w` bits: with fewer than `2 ^ w` vertices the iterators from `begin()` move, compare and read like random access iterators,
and read the list of their vertex; `end()` is at position `N_` (which is one too far for graphs made from edge lists, C08). -/
theorem csr_positions (g : Csr α) (obj : Nat) (hn : g.numVertices < 2 ^ w) :
    Positions (csrOps g) g.numVertices (at_ w obj) g.row ∧ beginCsr obj = at_ w obj 0 ∧ endCsr g obj = at_ w obj g.N := by
  have hlt : ∀ a, a ≤ g.numVertices → a < 2 ^ w := fun a h => by omega
  have hrow : ∀ a, a < g.numVertices → readRow g (BitVec.ofNat w a) (BitVec.ofNat w a + 1) = g.row a := by
    intro a ha
    have h1 : (BitVec.ofNat w a).toNat = a := toNat_at (obj := obj) (hlt a (by omega))
    have h2 : (BitVec.ofNat w a + 1).toNat = a + 1 := by
      have : BitVec.ofNat w a + 1 = BitVec.ofNat w (a + 1) := by simp [BitVec.ofNat_add]
      rw [this]; exact toNat_at (obj := obj) (hlt (a + 1) (by omega))
    simp only [readRow, Csr.row, Csr.rowBounds, h1, h2]
    cases vget g.indices a with
    | error f => rfl
    | ok x =>
      simp only [res_bind_ok]
      cases vget g.indices (a + 1) with
      | error f => rfl
      | ok y => rfl
  refine ⟨⟨fun a _ => (moves obj).1 a, fun a _ => (moves obj).2.1 a, fun a b d _ _ h => (moves obj).2.2.1 a b d h, fun a b d _ _ h => (moves obj).2.2.2 a b d h,
    fun a b ha hb => at_eq_iff (hlt a ha) (hlt b hb), fun a b ha hb => ?_, fun a b ha hb => ?_, fun a b ha hb => ?_, fun a b ha hb => ?_, fun a ha => hrow a ha, fun a b d ha hb h => ?_⟩, rfl, rfl⟩
  · show decide _ = _
    rw [toNat_at (hlt a ha), toNat_at (hlt b hb)]
  · show decide _ = _
    rw [toNat_at (hlt a ha), toNat_at (hlt b hb)]
  · show decide _ = _
    rw [toNat_at (hlt a ha), toNat_at (hlt b hb)]
  · show decide _ = _
    rw [toNat_at (hlt a ha), toNat_at (hlt b hb)]
  · show readRow g (BitVec.ofNat w a + BitVec.ofInt w d) (BitVec.ofNat w a + BitVec.ofInt w d + 1) = _
    rw [ofNat_add_ofInt h, hrow b hb]

/-- The differences are the distances in graphs with fewer than half as many vertices as there are indices. -/
theorem csr_distances_partial (g : Csr α) (obj : Nat) (hn : 2 * g.numVertices < 2 ^ w) : DiffIsDistance (csrOps (w := w) g) g.numVertices (at_ w obj) :=
  distances_of_small _ rfl _ _ hn

example : let g : Csr Unit := Csr.ofVectors [0, 2, 2, 3] [1, 2, 0] [(), (), ()]
    g.numVertices < 2 ^ 32 ∧ 2 * g.numVertices < 2 ^ 32 ∧ (csrOps (w := 32) g).at_ (endCsr g 0) (-3) = .ok [(1, ()), (2, ())] ∧
    (csrOps (w := 32) g).diff (endCsr g 0) (beginCsr 0) = 3 := by decide

/-- In larger graphs they are not: with at least half as many vertices as there are indices (`2 ^ 31` with the default index type), `end() - begin()` is negative. -/
theorem csr_distance_negative (g : Csr α) (obj : Nat) (hw : 0 < w) (hN : 2 ^ (w - 1) ≤ g.N) (hn : g.N < 2 ^ w) :
    (csrOps (w := w) g).diff (endCsr g obj) (beginCsr obj) = (g.N : Int) - 2 ^ w ∧ (csrOps (w := w) g).diff (endCsr g obj) (beginCsr obj) < 0 := by
  have h2 : 2 ^ w = 2 * 2 ^ (w - 1) := by
    obtain ⟨v, rfl⟩ : ∃ v, w = v + 1 := ⟨w - 1, by omega⟩
    rw [pow_succ]; simp [Nat.mul_comm]
  have h : (csrOps (w := w) g).diff (endCsr g obj) (beginCsr obj) = (g.N : Int) - 2 ^ w := by
    show diff (at_ w obj g.N) (at_ w obj 0) = _
    rw [diff_at, show ((g.N : Int) - ((0 : Nat) : Int)) = g.N by simp, Int.bmod_def, Int.emod_eq_of_lt (by omega) (by exact_mod_cast hn)]
    rw [if_neg (by push_cast; have : ((g.N : Int)) ≥ 2 ^ (w - 1) := by exact_mod_cast hN
                   have h3 : ((2 : Int)) ^ w = 2 * 2 ^ (w - 1) := by exact_mod_cast h2
                   omega)]
    push_cast; ring
  refine ⟨h, ?_⟩
  rw [h]
  have : (g.N : Int) < 2 ^ w := by exact_mod_cast hn
  omega

/-- Iterators over the vertices of two different graphs compare equal. -/
theorem csr_equal_across_graphs (g : Csr α) (a : Nat) : (csrOps (w := w) g).eq (at_ w 0 a) (at_ w 1 a) = true := by
  simp [csrOps, at_]

end NW.Iterators
