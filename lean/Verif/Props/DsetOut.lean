import Verif.Model.DsetOut
import Verif.Props.DisjointSet
import Verif.Lemmas.ListRes
import Verif.Spec.ComponentSizes
import Verif.Spec.SpanningForest
import Mathlib.Data.Finset.Card
import Mathlib.Data.List.Basic

/-!
# C117: histories of calls to a disjoint set, and reading the sets out of it
-/

namespace NW.DsetOut
open Spec DisjointSet
open Dsu (getElem?_set_ite)

/-! ## A caller that only uses the operations that work -/

/-- The calls: looking for the representative of an element, or joining two sets, by size or by height. -/
inductive Call where
  | find (x : Nat)
  | bySize (u v : Nat)
  | byHeight (u v : Nat)

/-- The pair of elements that are joined. -/
def Call.pair : Call → Option (Nat × Nat)
  | .find _ => none
  | .bySize u v => some (u, v)
  | .byHeight u v => some (u, v)

/-- The elements are below `n`. -/
def Call.Below (n : Nat) : Call → Prop
  | .find x => x < n
  | .bySize u v => u < n ∧ v < n
  | .byHeight u v => u < n ∧ v < n

/-- The pairs of elements that were joined. -/
def joined (calls : List Call) : List (Nat × Nat) := calls.filterMap Call.pair

/-- Join the sets of `u` and `v`: look for both representatives and combine them if they are different. -/
def unite (combine : DSet → Nat → Nat → Res DSet) (d : DSet) (u v : Nat) : Run DSet := do
  let p ← findCompress d u
  let q ← findCompress p.1 v
  match p.2, q.2 with
  | some ru, some rv => if ru ≠ rv then Run.lift (combine q.1 ru rv) else return q.1
  | _, _ => return q.1

/-- One call. -/
def perform (d : DSet) : Call → Run DSet
  | .find x => do
    let p ← findCompress d x
    return p.1
  | .bySize u v => unite combineBySize d u v
  | .byHeight u v => unite combineByHeight d u v

/-- All calls, on `n` elements that are each in a set of their own. -/
def history (n : Nat) (calls : List Call) : Run DSet := calls.foldlM perform (create n)

/-! ## The sets -/

/-- Both elements have the same root. -/
def Same (s : List Int) (x y : Nat) : Prop := ∃ r, Root s x r ∧ Root s y r

/-- The state after the pairs `E` of `n` elements were joined. -/
structure St (n : Nat) (E : List (Nat × Nat)) (d : DSet) : Prop where
  len : d.sets.length = n
  num : d.nsets = n
  valid : Valid d.sets
  below : ∀ p ∈ E, p.1 < n ∧ p.2 < n
  same : ∀ x y, x < n → y < n → (Same d.sets x y ↔ Conn (Pairs E) x y)

theorem vset_length {α : Type} {l l' : List α} {i : Nat} {a : α} (h : vset l i a = .ok l') : l'.length = l.length := by
  by_cases hi : i < l.length
  · rw [vset_of_lt hi] at h
    cases h
    simp
  · rw [vset_of_ge (by omega)] at h
    cases h

theorem bind_ok {α β : Type} {x : Res α} {f : α → Res β} {b : β} (h : x >>= f = .ok b) : ∃ a, x = .ok a ∧ f a = .ok b := by
  cases x with
  | ok a => exact ⟨a, rfl, h⟩
  | error e => cases h

theorem combineBySize_keeps {d d' : DSet} {u v : Nat} (h : combineBySize d u v = .ok d') : d'.sets.length = d.sets.length ∧ d'.nsets = d.nsets := by
  unfold combineBySize at h
  obtain ⟨a, -, h⟩ := bind_ok h
  obtain ⟨b, -, h⟩ := bind_ok h
  obtain ⟨_, -, h⟩ := bind_ok h
  obtain ⟨_, -, h⟩ := bind_ok h
  split at h
  all_goals
    obtain ⟨s, h1, h⟩ := bind_ok h
    obtain ⟨s', h2, h⟩ := bind_ok h
    cases h
    exact ⟨(vset_length h2).trans (vset_length h1), rfl⟩

theorem combineByHeight_keeps {d d' : DSet} {u v : Nat} (h : combineByHeight d u v = .ok d') : d'.sets.length = d.sets.length ∧ d'.nsets = d.nsets := by
  unfold combineByHeight at h
  obtain ⟨a, -, h⟩ := bind_ok h
  obtain ⟨b, -, h⟩ := bind_ok h
  obtain ⟨_, -, h⟩ := bind_ok h
  obtain ⟨_, -, h⟩ := bind_ok h
  split at h
  · obtain ⟨s, h1, h⟩ := bind_ok h
    cases h
    exact ⟨vset_length h1, rfl⟩
  · obtain ⟨s, h1, h⟩ := bind_ok h
    obtain ⟨s', h2, h⟩ := bind_ok h
    cases h
    refine ⟨(vset_length h2).trans ?_, rfl⟩
    unfold raiseHeight at h1
    split at h1
    · exact vset_length h1
    · cases h1; rfl

theorem Conn.append {E : List (Nat × Nat)} {x y : Nat} (p : Nat × Nat) (h : Conn (Pairs E) x y) : Conn (Pairs (E ++ [p])) x y :=
  h.lift fun _ _ h => .of (List.mem_append_left _ h)

/-- Hanging the root `b` under the root `a`, where these are the roots of `u` and `v`, joins their sets. -/
theorem St.link {n : Nat} {E : List (Nat × Nat)} {d d' : DSet} (h : St n E d) {u v ru rv a b : Nat} (hu : Root d.sets u ru) (hw : Root d.sets v rv)
    (hab : a = ru ∧ b = rv ∨ a = rv ∧ b = ru) (hl : d'.sets.length = d.sets.length) (hnum : d'.nsets = d.nsets) (hv : Valid d'.sets)
    (hr : ∀ x r, Root d.sets x r → Root d'.sets x (if r = b then a else r)) : St n (E ++ [(u, v)]) d' := by
  have hun : u < n := by have := hu.lt; rw [h.len] at this; exact this
  have hvn : v < n := by have := hw.lt; rw [h.len] at this; exact this
  have rootOf : ∀ x, x < n → ∃ r, Root d.sets x r := fun x hx => h.valid x (by rw [h.len]; exact hx)
  refine ⟨by rw [hl, h.len], by rw [hnum, h.num], hv, ?_, ?_⟩
  · intro p hp
    rcases List.mem_append.1 hp with hp | hp
    · exact h.below p hp
    · rw [List.mem_singleton.1 hp]; exact ⟨hun, hvn⟩
  · intro x y hx hy
    constructor
    · rintro ⟨r, h1, h2⟩
      obtain ⟨rx, hrx⟩ := rootOf x hx
      obtain ⟨ry, hry⟩ := rootOf y hy
      have e := (hr x rx hrx).det h1
      have e' := (hr y ry hry).det h2
      rw [← e'] at e
      have conn : ∀ {p q r : Nat}, p < n → q < n → Root d.sets p r → Root d.sets q r → Conn (Pairs (E ++ [(u, v)])) p q :=
        fun hp hq h1 h2 => Conn.append _ ((h.same _ _ hp hq).1 ⟨_, h1, h2⟩)
      have edge : Conn (Pairs (E ++ [(u, v)])) u v := .of (List.mem_append_right _ (List.mem_singleton.2 rfl))
      by_cases hbx : rx = b <;> by_cases hby : ry = b
      · exact conn hx hy hrx (by rw [hbx, ← hby]; exact hry)
      · rw [if_pos hbx, if_neg hby] at e
        subst hbx; subst e
        rcases hab with ⟨rfl, rfl⟩ | ⟨rfl, rfl⟩
        · exact (conn hx hvn hrx hw).trans (edge.symm.trans (conn hun hy hu hry))
        · exact (conn hx hun hrx hu).trans (edge.trans (conn hvn hy hw hry))
      · rw [if_neg hbx, if_pos hby] at e
        subst hby; subst e
        rcases hab with ⟨rfl, rfl⟩ | ⟨rfl, rfl⟩
        · exact (conn hx hun hrx hu).trans (edge.trans (conn hvn hy hw hry))
        · exact (conn hx hvn hrx hw).trans (edge.symm.trans (conn hun hy hu hry))
      · rw [if_neg hbx, if_neg hby] at e
        subst e
        exact conn hx hy hrx hry
    · intro hc
      classical
      have hf := hc.const (fun x => if h : ∃ r, Root d'.sets x r then some h.choose else none) ?_
      · have hx' : ∃ r, Root d'.sets x r := hv x (by rw [hl, h.len]; exact hx)
        have hy' : ∃ r, Root d'.sets y r := hv y (by rw [hl, h.len]; exact hy)
        beta_reduce at hf
        rw [dif_pos hx', dif_pos hy', Option.some.injEq] at hf
        exact ⟨_, hx'.choose_spec, by rw [hf]; exact hy'.choose_spec⟩
      · have key : ∀ {p q r : Nat}, Root d'.sets p r → Root d'.sets q r →
            (if h : ∃ r, Root d'.sets p r then some h.choose else none) = if h : ∃ r, Root d'.sets q r then some h.choose else none := by
          intro p q r h1 h2
          have hp : ∃ r, Root d'.sets p r := ⟨r, h1⟩
          have hq : ∃ r, Root d'.sets q r := ⟨r, h2⟩
          rw [dif_pos hp, dif_pos hq, hp.choose_spec.det h1, hq.choose_spec.det h2]
        intro p q hpq
        rcases List.mem_append.1 hpq with hpq | hpq
        · obtain ⟨hp, hq⟩ := h.below _ hpq
          obtain ⟨r, h1, h2⟩ := (h.same p q hp hq).2 (.of hpq)
          exact key (hr p r h1) (hr q r h2)
        · have hpq := List.mem_singleton.1 hpq
          cases hpq
          have h1 := hr u ru hu
          have h2 := hr v rv hw
          rcases hab with ⟨rfl, rfl⟩ | ⟨rfl, rfl⟩
          · rw [if_pos rfl] at h2
            have : (if a = b then a else a) = a := by split <;> rfl
            rw [this] at h1
            exact key h1 h2
          · rw [if_pos rfl] at h1
            have : (if a = b then a else a) = a := by split <;> rfl
            rw [this] at h2
            exact key h1 h2

/-- Joining elements that are in the same set changes nothing. -/
theorem St.again {n : Nat} {E : List (Nat × Nat)} {d : DSet} (h : St n E d) {u v r : Nat} (hu : Root d.sets u r) (hw : Root d.sets v r) : St n (E ++ [(u, v)]) d := by
  refine h.link hu hw (Or.inl ⟨rfl, rfl⟩) rfl rfl h.valid fun x r' hx => ?_
  split
  · rename_i e; rw [← e]; exact hx
  · exact hx

theorem St.same_roots {n : Nat} {E : List (Nat × Nat)} {d d' : DSet} (h : St n E d) (hv : Valid d'.sets) (hnum : d'.nsets = d.nsets) (hl : d'.sets.length = d.sets.length)
    (hr : ∀ y r, Root d'.sets y r ↔ Root d.sets y r) : St n E d' := by
  refine ⟨by rw [hl, h.len], by rw [hnum, h.num], hv, h.below, fun x y hx hy => ?_⟩
  rw [← h.same x y hx hy]
  unfold Same
  simp only [hr]

theorem St.root {n : Nat} {E : List (Nat × Nat)} {d : DSet} (h : St n E d) {x : Nat} (hx : x < n) : ∃ r, Root d.sets x r := h.valid x (by rw [h.len]; exact hx)

/-- What is known of `combine`. -/
def Combines (P : List Int → Prop) (combine : DSet → Nat → Nat → Res DSet) : Prop := ∀ d u v, Valid d.sets → Root d.sets u u → Root d.sets v v → u ≠ v → P d.sets →
  ∃ d' a b, combine d u v = .ok d' ∧ (a = u ∧ b = v ∨ a = v ∧ b = u) ∧ d'.sets.length = d.sets.length ∧ d'.nsets = d.nsets ∧ Valid d'.sets ∧
    (∀ x r, Root d.sets x r → Root d'.sets x (if r = b then a else r)) ∧ P d'.sets

theorem bySize_combines : Combines Sized combineBySize := by
  intro d u v hv hu hw hne hP
  obtain ⟨d', a, b, h1, h2, -, h4, h5, h6⟩ := combineBySize_correct d hv u v hu hw hne
  exact ⟨d', a, b, h1, h2, (combineBySize_keeps h1).1, (combineBySize_keeps h1).2, h4, h5, h6 hP⟩

theorem bySize_combines' : Combines (fun _ => True) combineBySize := by
  intro d u v hv hu hw hne hP
  obtain ⟨d', a, b, h1, h2, -, h4, h5, h6⟩ := combineBySize_correct d hv u v hu hw hne
  exact ⟨d', a, b, h1, h2, (combineBySize_keeps h1).1, (combineBySize_keeps h1).2, h4, h5, trivial⟩

theorem byHeight_combines : Combines (fun _ => True) combineByHeight := by
  intro d u v hv hu hw hne hP
  obtain ⟨d', a, b, h1, h2, -, h4, h5, -, -⟩ := combineByHeight_correct d hv u v hu hw (Ne.symm hne)
  exact ⟨d', a, b, h1, h2.symm, (combineByHeight_keeps h1).1, (combineByHeight_keeps h1).2, h4, h5, trivial⟩

/-- What compression keeps. -/
def Keeps (P : List Int → Prop) : Prop := ∀ s s' : List Int, Valid s → s'.length = s.length → (∀ y r, Root s' y r ↔ Root s y r) →
  (∀ (r k : Nat), s[r]? = some (Int.negSucc k) → s'[r]? = some (Int.negSucc k)) → P s → P s'

theorem keeps_true : Keeps fun _ => True := fun _ _ _ _ _ _ h => h

theorem keeps_sized : Keeps Sized := by
  intro s s' hv hl hr hk h r k h'
  have h1 : Root s r r := (hr r r).1 (.root h')
  obtain ⟨k', h2⟩ := h1.isRoot
  have h3 := hk r k' h2
  rw [h'] at h3
  cases h3
  have := h r k h2
  rw [← this]
  congr 1
  unfold members
  rw [hl]
  ext x
  simp only [Finset.mem_filter, hr]

theorem find_step {P : List Int → Prop} (hK : Keeps P) {n : Nat} {E : List (Nat × Nat)} {d : DSet} (h : St n E d) (hP : P d.sets) {x : Nat} (hx : x < n) :
    Run.Gives (findCompress d (x : Int)) fun o => St n E o.1 ∧ P o.1.sets ∧ ∃ r, o.2 = some r ∧ Root o.1.sets x r ∧ ∀ y r, Root o.1.sets y r ↔ Root d.sets y r := by
  obtain ⟨r, hr⟩ := h.root hx
  refine (find_with_pathcompression_correct d h.valid x r hr).mono fun o ⟨h1, h2, h3, h4, h5, _, h6⟩ => ?_
  exact ⟨h.same_roots h2 h3 h4 h5, hK _ _ h.valid h4 h5 h6 hP, r, h1, (h5 x r).2 hr, h5⟩

theorem unite_step {P : List Int → Prop} (hK : Keeps P) {combine : DSet → Nat → Nat → Res DSet} (hC : Combines P combine) {n : Nat} {E : List (Nat × Nat)} {d : DSet} (h : St n E d) (hP : P d.sets)
    {u v : Nat} (hu : u < n) (hv : v < n) : Run.Gives (unite combine d u v) fun d' => St n (E ++ [(u, v)]) d' ∧ P d'.sets := by
  unfold unite
  refine (find_step hK h hP hu).bind fun p ⟨p1, p2, ru, p3, p4, _⟩ => ?_
  refine (find_step hK p1 p2 hv).bind fun q ⟨q1, q2, rv, q3, q4, q5⟩ => ?_
  rw [p3, q3]
  have hru : Root q.1.sets u ru := (q5 u ru).2 p4
  simp only []
  split
  · rename_i hne
    obtain ⟨ku, hku⟩ := hru.isRoot
    obtain ⟨kv, hkv⟩ := q4.isRoot
    obtain ⟨d', a, b, c1, c2, c3, c4, c5, c6, c7⟩ := hC q.1 ru rv q1.valid (.root hku) (.root hkv) hne q2
    exact Run.gives_lift c1 ⟨q1.link hru q4 c2 c3 c4 c5 c6, c7⟩
  · rename_i he
    have he : ru = rv := by simpa using he
    subst he
    exact Run.gives_pure ⟨q1.again hru q4, q2⟩

theorem st_create (n : Nat) : St n [] (create n) := by
  refine ⟨by simp [create], rfl, valid_create n, by simp, fun x y hx hy => ⟨?_, ?_⟩⟩
  · rintro ⟨r, h1, h2⟩
    have e : ∀ {z : Nat}, z < n → Root (create n).sets z z := fun hz => .root (k := 0) (by unfold create; rw [List.getElem?_replicate, if_pos hz]; rfl)
    rw [(e hx).det h1, (e hy).det h2]
    exact .refl _
  · intro h
    have e : x = y := h.const (fun z => z) fun a b h => by cases h
    subst e
    obtain ⟨r, hr⟩ := valid_create n x (by simpa [create] using hx)
    exact ⟨r, hr, hr⟩

theorem joined_append (calls : List Call) (c : Call) : joined (calls ++ [c]) = joined calls ++ c.pair.toList := by
  unfold joined
  rw [List.filterMap_append]
  cases c <;> rfl

theorem history_ok (n : Nat) (calls : List Call) (hb : ∀ c ∈ calls, c.Below n) :
    Run.Gives (history n calls) fun d => St n (joined calls) d ∧ ((∀ c ∈ calls, ∀ u v, c ≠ .byHeight u v) → Sized d.sets) := by
  unfold history
  refine Run.gives_foldlM (fun (pre : List Call) (d : DSet) => St n (joined pre) d ∧ ((∀ c ∈ pre, ∀ u v, c ≠ .byHeight u v) → Sized d.sets)) ⟨st_create n, fun _ => sized_create n⟩ ?_
  intro pre c post hl d ⟨h1, h2⟩
  have hc : c.Below n := hb c (by rw [hl]; simp)
  have hpre : (∀ c' ∈ pre ++ [c], ∀ u v, c' ≠ .byHeight u v) → Sized d.sets := fun h => h2 fun c' hc' => h c' (List.mem_append_left _ hc')
  rw [joined_append]
  cases c with
  | find x =>
    simp only [Call.pair, Option.toList_none, List.append_nil]
    unfold perform
    refine (find_step (P := fun s => (∀ c' ∈ pre ++ [Call.find x], ∀ u v, c' ≠ .byHeight u v) → Sized s) ?_ h1 hpre hc).bind fun o ⟨o1, o2, _⟩ => Run.gives_pure ⟨o1, o2⟩
    intro s s' a b c d e f
    exact keeps_sized s s' a b c d (e f)
  | bySize u v =>
    simp only [Call.pair, Option.toList_some]
    unfold perform
    by_cases hs : ∀ c' ∈ pre ++ [Call.bySize u v], ∀ u v, c' ≠ .byHeight u v
    · exact (unite_step keeps_sized bySize_combines h1 (hpre hs) hc.1 hc.2).mono fun d h => ⟨h.1, fun _ => h.2⟩
    · exact (unite_step keeps_true bySize_combines' h1 trivial hc.1 hc.2).mono fun d h => ⟨h.1, fun h' => absurd h' hs⟩
  | byHeight u v =>
    simp only [Call.pair, Option.toList_some]
    unfold perform
    exact (unite_step keeps_true byHeight_combines h1 trivial hc.1 hc.2).mono fun d h => ⟨h.1, fun h' => absurd rfl (h' (.byHeight u v) (by simp) u v)⟩

/-- C117. After any history of calls, two elements have the same representative exactly if the calls have joined them, directly or through others. -/
theorem history_representatives (n : Nat) (calls : List Call) (hb : ∀ c ∈ calls, c.Below n) (x y : Nat) (hx : x < n) (hy : y < n) :
    Run.Gives (do
      let d ← history n calls
      let p ← findCompress d x
      let q ← findCompress p.1 y
      return (p.2, q.2)) fun o => ∃ a b, o = (some a, some b) ∧ a < n ∧ b < n ∧ Conn (Pairs (joined calls)) x a ∧ Conn (Pairs (joined calls)) y b ∧ (a = b ↔ Conn (Pairs (joined calls)) x y) := by
  refine (history_ok n calls hb).bind fun d ⟨hd, _⟩ => ?_
  refine (find_step keeps_true hd trivial hx).bind fun p ⟨p1, _, a, p3, p4, _⟩ => ?_
  refine (find_step keeps_true p1 trivial hy).bind fun q ⟨q1, _, b, q3, q4, q5⟩ => ?_
  rw [p3, q3]
  have ha : Root q.1.sets x a := (q5 x a).2 p4
  have lt : ∀ {z r : Nat}, Root q.1.sets z r → r < n ∧ Root q.1.sets r r := by
    intro z r hz
    obtain ⟨k, hk⟩ := hz.isRoot
    have : Root q.1.sets r r := .root hk
    have h := this.lt
    rw [q1.len] at h
    exact ⟨h, this⟩
  refine Run.gives_pure ⟨a, b, rfl, (lt ha).1, (lt q4).1, (q1.same x a hx (lt ha).1).1 ⟨a, ha, (lt ha).2⟩, (q1.same y b hy (lt q4).1).1 ⟨b, q4, (lt q4).2⟩, ?_⟩
  rw [← q1.same x y hx hy]
  constructor
  · rintro rfl; exact ⟨a, ha, q4⟩
  · rintro ⟨r, h1, h2⟩
    rw [ha.det h1, q4.det h2]

/-! ## Reading the roots -/

/-- The entry is negative. -/
def neg (s : List Int) (i : Nat) : Bool := decide (0 > s.getD i 0)

/-- The elements below `m` with a negative entry. -/
def rootsBelow (s : List Int) (m : Nat) : List Nat := (List.range m).filter (neg s)

theorem getD_of_lt {s : List Int} {i : Nat} (h : i < s.length) : s.getD i 0 = s[i] := by rw [List.getD_eq_getElem?_getD, List.getElem?_eq_getElem h]; rfl

theorem vget_getD {s : List Int} {i : Nat} (h : i < s.length) : vget s i = .ok (s.getD i 0) := by rw [vget_of_lt h, getD_of_lt h]

theorem not_self {s : List Int} (hv : Valid s) {i : Nat} (hi : i < s.length) : s[i]? ≠ some (i : Int) := by
  intro h
  obtain ⟨r, hr⟩ := hv i hi
  have : ∀ x r, Root s x r → x = i → False := by
    intro x r hx
    induction hx with
    | root hk =>
      rintro rfl
      rw [h] at hk; cases hk
    | up hp _ ih =>
      rintro rfl
      rw [h] at hp
      have := Int.ofNat.inj (Option.some.inj hp)
      exact ih this.symm
  exact this i r hr rfl

theorem neg_iff_root {s : List Int} {i : Nat} (hi : i < s.length) : neg s i = true ↔ Root s i i := by
  unfold neg
  rw [getD_of_lt hi, decide_eq_true_iff]
  constructor
  · intro h
    obtain ⟨k, hk⟩ := Int.eq_negSucc_of_lt_zero h
    exact .root (k := k) (by rw [List.getElem?_eq_getElem hi, hk])
  · intro h
    obtain ⟨k, hk⟩ := h.isRoot
    rw [List.getElem?_eq_getElem hi, Option.some.injEq] at hk
    rw [hk]
    exact Int.negSucc_lt_zero k

theorem filterM_ok {α : Type} {f : α → Res Bool} {p : α → Bool} : ∀ {l : List α}, (∀ a ∈ l, f a = .ok (p a)) → l.filterM f = .ok (l.filter p) := by
  intro l
  have key : ∀ (l acc : List α), (∀ a ∈ l, f a = .ok (p a)) → List.filterAuxM f l acc = .ok ((l.filter p).reverse ++ acc) := by
    intro l
    induction l with
    | nil => intro acc _; rfl
    | cons a l ih =>
      intro acc h
      unfold List.filterAuxM
      rw [h a (by simp), res_bind_ok, ih _ fun b hb => h b (List.mem_cons_of_mem _ hb), List.filter_cons]
      cases p a <;> simp
  intro h
  unfold List.filterM
  rw [key l [] h, res_bind_ok]
  simp [res_pure]

theorem rootIndices_ok {d : DSet} (hv : Valid d.sets) : rootIndices d = .ok (rootsBelow d.sets d.sets.length) := by
  unfold rootIndices rootsBelow
  refine filterM_ok fun i hi => ?_
  have hi := List.mem_range.1 hi
  rw [vget_getD hi, res_bind_ok, res_pure]
  congr 1
  have : decide ((i : Int) = d.sets.getD i 0) = false := by
    rw [decide_eq_false_iff_not, getD_of_lt hi]
    intro e
    exact not_self hv hi (by rw [List.getElem?_eq_getElem hi, ← e])
  rw [this, Bool.or_false]
  rfl

theorem mem_rootsBelow {s : List Int} {i : Nat} : i ∈ rootsBelow s s.length ↔ Root s i i := by
  unfold rootsBelow
  rw [List.mem_filter, List.mem_range]
  exact ⟨fun h => (neg_iff_root h.1).1 h.2, fun h => ⟨h.lt, (neg_iff_root h.lt).2 h⟩⟩

theorem Root.self {s : List Int} {x r : Nat} (h : Root s x r) : Root s r r := by
  obtain ⟨k, hk⟩ := h.isRoot
  exact .root hk

theorem card_roots {n : Nat} {E : List (Nat × Nat)} {d : DSet} (h : St n E d) : (rootsBelow d.sets d.sets.length).length = (components (Pairs E) n).card := by
  classical
  have hnd : (rootsBelow d.sets d.sets.length).Nodup := List.nodup_range.filter _
  rw [← List.toFinset_card_of_nodup hnd]
  have hinj : ∀ a ∈ (rootsBelow d.sets d.sets.length).toFinset, ∀ b ∈ (rootsBelow d.sets d.sets.length).toFinset, component (Pairs E) n a = component (Pairs E) n b → a = b := by
    intro a ha b hb e
    have ha := mem_rootsBelow.1 (List.mem_toFinset.1 ha)
    have hb := mem_rootsBelow.1 (List.mem_toFinset.1 hb)
    have han : a < n := by rw [← h.len]; exact ha.lt
    have hbn : b < n := by rw [← h.len]; exact hb.lt
    have : b ∈ component (Pairs E) n a := by
      rw [e]
      exact Finset.mem_filter.2 ⟨Finset.mem_range.2 hbn, .refl _⟩
    obtain ⟨r, h1, h2⟩ := (h.same a b han hbn).2 (Finset.mem_filter.1 this).2
    rw [ha.det h1, hb.det h2]
  rw [← Finset.card_image_of_injOn (f := component (Pairs E) n) (fun a ha b hb => hinj a ha b hb)]
  congr 1
  ext c
  unfold components
  simp only [Finset.mem_image, Finset.mem_range, List.mem_toFinset]
  constructor
  · rintro ⟨a, ha, rfl⟩
    exact ⟨a, by rw [← h.len]; exact (mem_rootsBelow.1 ha).lt, rfl⟩
  · rintro ⟨x, hx, rfl⟩
    obtain ⟨r, hr⟩ := h.root hx
    refine ⟨r, mem_rootsBelow.2 (Root.self hr), ?_⟩
    have hrn : r < n := by rw [← h.len]; exact (Root.self hr).lt
    have hc := (h.same x r hx hrn).1 ⟨r, hr, Root.self hr⟩
    unfold component
    exact Finset.filter_congr fun y _ => ⟨fun hy => hc.trans hy, fun hy => hc.symm.trans hy⟩

/-- C117. After any history of calls, `forEachRootIndex` visits exactly one element of every set, in ascending order. -/
theorem for_each_root_index_correct (n : Nat) (calls : List Call) (hb : ∀ c ∈ calls, c.Below n) :
    Run.Gives (history n calls) fun d => ∃ l, rootIndices d = .ok l ∧ l.Pairwise (· < ·) ∧ (∀ r ∈ l, r < n) ∧ l.length = (components (Pairs (joined calls)) n).card ∧
      ∀ x < n, ∃ r ∈ l, Conn (Pairs (joined calls)) x r ∧ ∀ r' ∈ l, Conn (Pairs (joined calls)) x r' → r' = r := by
  refine (history_ok n calls hb).mono fun d ⟨h, _⟩ => ⟨_, rootIndices_ok h.valid, ?_, ?_, card_roots h, ?_⟩
  · exact List.pairwise_lt_range.sublist List.filter_sublist
  · intro r hr
    rw [← h.len]
    exact (mem_rootsBelow.1 hr).lt
  · intro x hx
    obtain ⟨r, hr⟩ := h.root hx
    have hrn : r < n := by rw [← h.len]; exact (Root.self hr).lt
    refine ⟨r, mem_rootsBelow.2 (Root.self hr), (h.same x r hx hrn).1 ⟨r, hr, Root.self hr⟩, fun r' hr' hc => ?_⟩
    have hr' := mem_rootsBelow.1 hr'
    obtain ⟨q, h1, h2⟩ := (h.same x r' hx (by rw [← h.len]; exact hr'.lt)).2 hc
    rw [hr.det h1, hr'.det h2]

/-- C117. If sets are joined by size only, `forEachRoot` is called with minus the size of every set. -/
theorem for_each_root_correct (n : Nat) (calls : List Call) (hb : ∀ c ∈ calls, c.Below n) (hs : ∀ c ∈ calls, ∀ u v, c ≠ .byHeight u v) :
    Run.Gives (history n calls) fun d => ∃ l, rootIndices d = .ok l ∧ rootEntries d = .ok (l.map fun r => -((component (Pairs (joined calls)) n r).card : Int)) := by
  refine (history_ok n calls hb).mono fun d ⟨h, hz⟩ => ⟨_, rootIndices_ok h.valid, ?_⟩
  unfold rootEntries
  rw [rootIndices_ok h.valid, res_bind_ok]
  refine mapM_ok_of_forall fun r hr => ?_
  have hr := mem_rootsBelow.1 hr
  obtain ⟨k, hk⟩ := hr.isRoot
  rw [vget_of_some hk]
  have hcard := hz hs r k hk
  have e : members d.sets r = component (Pairs (joined calls)) n r := by
    unfold members component
    rw [h.len]
    ext x
    simp only [Finset.mem_filter, Finset.mem_range]
    have hrn : r < n := by rw [← h.len]; exact hr.lt
    refine and_congr_right fun hx => ?_
    rw [← h.same r x hrn hx]
    exact ⟨fun hxr => ⟨r, hr, hxr⟩, fun ⟨q, h1, h2⟩ => by rw [hr.det h1]; exact h2⟩
  rw [e] at hcard
  rw [hcard]
  rfl

/-- C117, against the property: the number of sets stays what it was at the beginning. -/
theorem set_number_never_changes (n : Nat) (calls : List Call) (hb : ∀ c ∈ calls, c.Below n) : Run.Gives (history n calls) fun d => getSetNumber d = n :=
  (history_ok n calls hb).mono fun _ h => h.1.num

/-! ## `getSubsets` -/

theorem filter_set {n r : Nat} {a : List Nat} (hr : r < n) (ha : a ≠ []) : ((List.replicate n []).set r a).filter (fun s => decide (0 < s.length)) = [a] := by
  have e : (List.replicate n ([] : List Nat)).set r a = List.replicate r [] ++ a :: List.replicate (n - r - 1) [] := by
    rw [List.set_eq_take_append_cons_drop, if_pos (by simpa using hr)]
    simp [Nat.min_eq_left (Nat.le_of_lt hr), Nat.sub_sub]
  have ha' : 0 < a.length := List.length_pos_iff.2 ha
  rw [e]
  simp [ha']

theorem gives_foldl_range {σ : Type} {f : σ → Nat → Run σ} {n : Nat} (I : Nat → σ → Prop) {s : σ} (h0 : I 0 s) (hstep : ∀ i < n, ∀ s, I i s → Run.Gives (f s i) (I (i + 1))) :
    Run.Gives ((List.range n).foldlM f s) (I n) := by
  have := Run.gives_foldlM (l := List.range n) (f := f) (s := s) (fun pre s => I pre.length s) h0 ?_
  · rwa [List.length_range] at this
  · intro pre x post hl s hs
    have hx : (List.range n)[pre.length]? = some x := by rw [hl, List.getElem?_append_right (Nat.le_refl _)]; simp
    obtain ⟨h1, h2⟩ := List.getElem?_eq_some_iff.1 hx
    rw [List.getElem_range] at h2
    rw [List.length_range] at h1
    subst h2
    rw [List.length_append]
    exact hstep _ h1 s hs

theorem getSubsets_ok {d : DSet} (hv : Valid d.sets) (hn : 0 < d.sets.length) : Run.Gives (getSubsets d) (· = some [List.range d.sets.length]) := by
  obtain ⟨r0, h0⟩ := hv 0 hn
  have hr0 := (Root.self h0).lt
  unfold getSubsets
  refine (gives_foldl_range (fun m o => o = some ((List.replicate (d.sets.length + 1) []).set r0 (List.range m))) ?_ ?_).bind ?_
  · rw [List.range_zero]
    congr 1
    refine List.ext_getElem (by simp) fun i h1 h2 => ?_
    simp
  · rintro m hm _ rfl
    rw [List.range_succ]
    refine (find_is_root_of_zero d m hm r0 h0).bind ?_
    rintro _ rfl
    have hget : ((List.replicate (d.sets.length + 1) ([] : List Nat)).set r0 (List.range m))[r0]? = some (List.range m) := by
      rw [List.getElem?_set_self (by simp; omega)]
    refine (Run.gives_lift (Q := (· = List.range m)) (vget_of_some hget) rfl).bind ?_
    rintro _ rfl
    refine (Run.gives_lift (vset_of_lt (by simp; omega)) (Q := (· = (List.replicate (d.sets.length + 1) []).set r0 (List.range m ++ [m]))) (by rw [List.set_set])).bind ?_
    rintro _ rfl
    exact Run.gives_pure rfl
  rintro _ rfl
  refine Run.gives_pure ?_
  rw [Option.map_some, filter_set (by omega) (by simpa using Nat.pos_iff_ne_zero.1 hn)]

/-- C117, against the property: whatever was joined, `getSubsets` reports one set with all elements. -/
theorem get_subsets_one_set (n : Nat) (hn : 0 < n) (calls : List Call) (hb : ∀ c ∈ calls, c.Below n) :
    Run.Gives (do let d ← history n calls; getSubsets d) (· = some [List.range n]) := by
  refine (history_ok n calls hb).bind fun d ⟨h, _⟩ => ?_
  have := getSubsets_ok h.valid (by rw [h.len]; exact hn)
  rwa [h.len] at this

/-- C117, in part: `getSubsets` is right exactly if all elements are in one set. -/
theorem get_subsets_partial (n : Nat) (hn : 0 < n) (calls : List Call) (hb : ∀ c ∈ calls, c.Below n) :
    Run.Gives (do let d ← history n calls; getSubsets d) fun o => ∃ sets, o = some sets ∧
      ((∀ s ∈ sets, ∀ x ∈ s, ∀ y ∈ s, Conn (Pairs (joined calls)) x y) ↔ ∀ x < n, ∀ y < n, Conn (Pairs (joined calls)) x y) := by
  refine (get_subsets_one_set n hn calls hb).mono ?_
  rintro _ rfl
  refine ⟨_, rfl, ?_⟩
  simp

/-! ## `getCompactDisjSets(nsets)` -/

theorem rootsBelow_succ (s : List Int) (m : Nat) : rootsBelow s (m + 1) = rootsBelow s m ++ if neg s m then [m] else [] := by
  unfold rootsBelow
  rw [List.range_succ, List.filter_append]
  cases h : neg s m <;> simp [h]

theorem rootsBelow_index {s : List Int} {i m : Nat} (hi : i < m) (hr : neg s i = true) : (rootsBelow s m)[(rootsBelow s i).length]? = some i := by
  induction m with
  | zero => omega
  | succ m ih =>
    rw [rootsBelow_succ]
    by_cases h : i < m
    · have := ih h
      rw [List.getElem?_append_left (List.getElem?_eq_some_iff.1 this).1]
      exact this
    · have : i = m := by omega
      subst this
      rw [if_pos hr, List.getElem?_append_right (Nat.le_refl _)]
      simp

theorem rootLabels_ok (d : DSet) : ∃ c, rootLabels d = .ok (c, (rootsBelow d.sets d.sets.length).length) ∧ c.length = d.sets.length ∧
    ∀ i < d.sets.length, neg d.sets i = true → c[i]? = some (((rootsBelow d.sets i).length + 1 : Nat) : Int) := by
  have key : ∀ m ≤ d.sets.length, ∃ c, (List.range m).foldlM (fun (p : List Int × Nat) i => do
      let x ← vget d.sets i
      if 0 > x then
        let c ← vset p.1 i ((p.2 + 1 : Nat) : Int)
        return (c, p.2 + 1)
      else return p) (List.replicate d.sets.length (-1), 0) = (.ok (c, (rootsBelow d.sets m).length) : Res (List Int × Nat)) ∧ c.length = d.sets.length ∧
      ∀ i < m, neg d.sets i = true → c[i]? = some (((rootsBelow d.sets i).length + 1 : Nat) : Int) := by
    intro m
    induction m with
    | zero => intro _; exact ⟨_, rfl, by simp, fun i hi => absurd hi (by omega)⟩
    | succ m ih =>
      intro hm
      obtain ⟨c, h1, h2, h3⟩ := ih (by omega)
      rw [List.range_succ, List.foldlM_append, h1, res_bind_ok, List.foldlM_cons, vget_getD (by omega), res_bind_ok, rootsBelow_succ]
      by_cases hneg : neg d.sets m = true
      · have hlt : 0 > d.sets.getD m 0 := by simpa [neg] using hneg
        rw [if_pos hlt, vset_of_lt (by show m < c.length; omega), res_bind_ok, res_pure, res_bind_ok, if_pos hneg]
        refine ⟨c.set m (((rootsBelow d.sets m).length + 1 : Nat) : Int), by simp [res_pure], by simpa using h2, fun i hi hn => ?_⟩
        rw [getElem?_set_ite (by omega)]
        by_cases e : m = i
        · subst e; rw [if_pos rfl]
        · rw [if_neg e]; exact h3 i (by omega) hn
      · have hlt : ¬ 0 > d.sets.getD m 0 := by simpa [neg] using hneg
        rw [if_neg hlt, res_pure, res_bind_ok, if_neg hneg, List.append_nil]
        refine ⟨c, by simp [res_pure], h2, fun i hi hn => ?_⟩
        by_cases e : i = m
        · subst e; exact absurd hn hneg
        · exact h3 i (by omega) hn
  exact key _ (Nat.le_refl _)

theorem compactSets_ok {d : DSet} (hv : Valid d.sets) : Run.Gives (compactSets d) fun o => ∃ c, o = some (c, (rootsBelow d.sets d.sets.length).length) ∧ c.length = d.sets.length ∧
    (∀ i < d.sets.length, neg d.sets i = true → c[i]? = some (((rootsBelow d.sets i).length + 1 : Nat) : Int)) ∧
    ∀ i < d.sets.length, neg d.sets i = false → c[i]? = c[0]? := by
  obtain ⟨c0, h1, h2, h3⟩ := rootLabels_ok d
  unfold compactSets
  refine (Run.gives_lift (Q := (· = (c0, (rootsBelow d.sets d.sets.length).length))) h1 rfl).bind ?_
  rintro _ rfl
  have h0 : 0 < d.sets.length → ∃ r0, Root d.sets 0 r0 := fun h => hv 0 h
  refine (gives_foldl_range (fun m o => ∃ c, o = some c ∧ c.length = d.sets.length ∧ (∀ i, neg d.sets i = true → c[i]? = c0[i]?) ∧
    ∀ i < m, neg d.sets i = false → ∀ r0, Root d.sets 0 r0 → c[i]? = c0[r0]?) ⟨c0, rfl, h2, fun _ _ => rfl, fun i hi => absurd hi (by omega)⟩ ?_).bind ?_
  · rintro m hm _ ⟨c, rfl, c1, c2, c3⟩
    obtain ⟨r0, hr0⟩ := h0 (by omega)
    have hrn := (neg_iff_root (Root.self hr0).lt).2 (Root.self hr0)
    refine (Run.gives_lift (Q := (· = d.sets.getD m 0)) (vget_getD hm) rfl).bind ?_
    rintro _ rfl
    by_cases hneg : neg d.sets m = true
    · have hlt : ¬ 0 ≤ d.sets.getD m 0 := by simpa [neg] using hneg
      rw [if_neg hlt]
      refine Run.gives_pure ⟨c, rfl, c1, c2, fun i hi hn r hr => ?_⟩
      by_cases e : i = m
      · subst e; rw [hneg] at hn; cases hn
      · exact c3 i (by omega) hn r hr
    · have hlt : 0 ≤ d.sets.getD m 0 := by simpa [neg] using hneg
      rw [if_pos hlt]
      refine (find_is_root_of_zero d m hm r0 hr0).bind ?_
      rintro _ rfl
      have hrl := (Root.self hr0).lt
      have hget : c[r0]? = some (c.getD r0 0) := by rw [List.getElem?_eq_getElem (by omega), getD_of_lt (by omega)]
      refine (Run.gives_lift (Q := (· = c.getD r0 0)) (vget_getD (by omega)) rfl).bind ?_
      rintro _ rfl
      refine (Run.gives_lift (vset_of_lt (by omega)) (Q := (· = c.set m (c.getD r0 0))) rfl).bind ?_
      rintro _ rfl
      refine Run.gives_pure ⟨_, rfl, by simpa using c1, fun i hi => ?_, fun i hi hn r hr => ?_⟩
      · rw [getElem?_set_ite (by omega), if_neg (by rintro rfl; exact hneg hi)]
        exact c2 i hi
      · rw [hr.det hr0, getElem?_set_ite (by omega)]
        by_cases e : m = i
        · rw [if_pos e, ← hget]; exact c2 r0 hrn
        · rw [if_neg e]; exact c3 i (by omega) hn r0 hr0
  rintro _ ⟨c, rfl, c1, c2, c3⟩
  refine Run.gives_pure ⟨c, rfl, c1, fun i hi hn => by rw [c2 i hn]; exact h3 i hi hn, fun i hi hn => ?_⟩
  obtain ⟨r0, hr0⟩ := h0 (by omega)
  rw [c3 i hi hn r0 hr0]
  cases h : neg d.sets 0 with
  | true =>
    have := ((neg_iff_root (by omega)).1 h).det hr0
    subst this
    rw [c2 0 h]
  | false => rw [c3 0 (by omega) h r0 hr0]

/-- C117, in part: `getCompactDisjSets(nsets)` reports the right number of sets and numbers the representatives 1, 2, ...; every other element gets the label of element 0. -/
theorem compact_sets_partial (n : Nat) (calls : List Call) (hb : ∀ c ∈ calls, c.Below n) :
    Run.Gives (do let d ← history n calls; let o ← compactSets d; let l ← Run.lift (rootIndices d); return (o, l)) fun p => ∃ c k, p.1 = some (c, k) ∧ c.length = n ∧
      k = (components (Pairs (joined calls)) n).card ∧ (∀ i r, p.2[i]? = some r → c[r]? = some ((i + 1 : Nat) : Int)) ∧ ∀ x < n, x ∉ p.2 → c[x]? = c[0]? := by
  refine (history_ok n calls hb).bind fun d ⟨h, _⟩ => ?_
  refine (compactSets_ok h.valid).bind ?_
  rintro _ ⟨c, rfl, c1, c2, c3⟩
  refine (Run.gives_lift (Q := (· = rootsBelow d.sets d.sets.length)) (rootIndices_ok h.valid) rfl).bind ?_
  rintro _ rfl
  refine Run.gives_pure ⟨c, _, rfl, by rw [c1, h.len], card_roots h, fun i r hir => ?_, fun x hx hn => ?_⟩
  · have hr := mem_rootsBelow.1 (List.mem_of_getElem? hir)
    have hneg := (neg_iff_root hr.lt).2 hr
    rw [c2 r hr.lt hneg]
    have := rootsBelow_index hr.lt hneg
    have hnd : (rootsBelow d.sets d.sets.length).Nodup := List.nodup_range.filter _
    have : i = (rootsBelow d.sets r).length := by
      obtain ⟨q1, q2⟩ := List.getElem?_eq_some_iff.1 hir
      obtain ⟨q3, q4⟩ := List.getElem?_eq_some_iff.1 this
      exact (List.Nodup.getElem_inj_iff hnd).1 (q2.trans q4.symm)
    rw [this]
  · refine c3 x (by rw [h.len]; exact hx) ?_
    have hx' : x < d.sets.length := by rw [h.len]; exact hx
    cases hh : neg d.sets x with
    | false => rfl
    | true => exact absurd (mem_rootsBelow.2 ((neg_iff_root hx').1 hh)) hn

/-- C117, against the property: after 1 and 2 of four elements were joined, `getCompactDisjSets(nsets)` puts 2 into the set of 0. -/
theorem compact_sets_wrong : Run.Gives (do let d ← history 4 [.bySize 1 2]; compactSets d) (· = some ([1, 2, 1, 3], 3)) ∧ ¬ Conn (Pairs (joined [.bySize 1 2])) 0 2 := by
  constructor
  · have hg : ∀ {d : DSet} {x : Nat}, d.sets[x]? = some (-1) → x < d.sets.length → Run.Gives (findCompress d (x : Int)) (· = (d, some x)) := by
      intro d x h hx
      unfold findCompress
      rw [badIndex_false hx]
      simp only [Bool.false_eq_true, if_false, Int.toNat_natCast]
      refine (Run.gives_lift (vget_of_some h) (Q := (· = -1)) rfl).bind ?_
      rintro _ rfl
      exact Run.gives_pure rfl
    have hh : Run.Gives (history 4 [.bySize 1 2]) (· = ⟨[-1, -2, 1, -1], 4⟩) := by
      unfold history
      rw [List.foldlM_cons]
      refine Run.Gives.bind (Q := (· = ⟨[-1, -2, 1, -1], 4⟩)) ?_ fun d hd => Run.gives_pure hd
      unfold perform unite
      refine (hg (d := create 4) (x := 1) rfl (by decide)).bind ?_
      rintro _ rfl
      refine (hg (d := create 4) (x := 2) rfl (by decide)).bind ?_
      rintro _ rfl
      exact Run.gives_lift rfl rfl
    refine hh.bind ?_
    rintro _ rfl
    have hv : Valid ([-1, -2, 1, -1] : List Int) := by
      intro x hx
      have hx : x < 4 := hx
      rcases x with _ | _ | _ | _ | x
      · exact ⟨0, .root (k := 0) rfl⟩
      · exact ⟨1, .root (k := 1) rfl⟩
      · exact ⟨1, .up (p := 1) rfl (.root (k := 1) rfl)⟩
      · exact ⟨3, .root (k := 0) rfl⟩
      · omega
    refine (compactSets_ok (d := ⟨[-1, -2, 1, -1], 4⟩) hv).mono ?_
    rintro _ ⟨c, rfl, c1, c2, c3⟩
    have c1 : c.length = 4 := c1
    have e0 : c[0]? = some 1 := c2 0 (by decide) rfl
    have e1 : c[1]? = some 2 := c2 1 (by decide) rfl
    have e2 : c[2]? = some 1 := (c3 2 (by decide) rfl).trans e0
    have e3 : c[3]? = some 3 := c2 3 (by decide) rfl
    have : c = [1, 2, 1, 3] := by
      refine List.ext_getElem? fun i => ?_
      rcases i with _ | _ | _ | _ | i
      · exact e0
      · exact e1
      · exact e2
      · exact e3
      · rw [List.getElem?_eq_none (by omega), List.getElem?_eq_none (by simp)]
    rw [this]
    rfl
  · intro h
    have := h.const (fun z => decide (z = 0)) fun a b hab => by
      have : (a, b) = (1, 2) := by simpa [joined, Call.pair, Pairs] using hab
      cases this
      rfl
    exact absurd this (by decide)

/-! ## `getCompactDisjSets()` -/

/-- The labels 1, 2, ... in the order of the first occurrences of the entries. -/
structure Labelled (seen : List Int) (m : List (Int × Nat) × Nat) : Prop where
  next : m.2 = m.1.length + 1
  label : ∀ i e, m.1[i]? = some e → e.2 = i + 1
  nodup : (m.1.map Prod.fst).Nodup
  keys : ∀ x, x ∈ m.1.map Prod.fst ↔ x ∈ seen

theorem labelled_insert {seen : List Int} {m : List (Int × Nat) × Nat} (h : Labelled seen m) (x : Int) : Labelled (seen ++ [x]) (insertLabel m x) := by
  unfold insertLabel
  have hany : (m.1.any fun e => decide (e.1 = x)) = true ↔ x ∈ m.1.map Prod.fst := by simp
  split
  · rename_i hx
    refine ⟨h.next, h.label, h.nodup, fun y => ?_⟩
    rw [h.keys y, List.mem_append, List.mem_singleton]
    constructor
    · exact Or.inl
    · rintro (h' | rfl)
      · exact h'
      · exact (h.keys y).1 (hany.1 hx)
  · rename_i hx
    refine ⟨by simp [h.next], ?_, ?_, ?_⟩
    · intro i e he
      by_cases hi : i < m.1.length
      · rw [List.getElem?_append_left hi] at he
        exact h.label i e he
      · rw [List.getElem?_append_right (by omega)] at he
        have : i = m.1.length := by
          obtain ⟨h1, -⟩ := List.getElem?_eq_some_iff.1 he
          simp at h1
          omega
        subst this
        simp at he
        rw [← he]
        exact h.next
    · rw [List.map_append, List.nodup_append]
      refine ⟨h.nodup, by simp, ?_⟩
      intro a ha b hb
      rw [List.map_singleton, List.mem_singleton] at hb
      rintro rfl
      rw [hb] at ha
      exact hx (hany.2 ha)
    · intro y
      rw [List.map_append, List.mem_append, h.keys y, List.mem_append]
      simp

theorem labelOf_eq {seen : List Int} {m : List (Int × Nat) × Nat} (h : Labelled seen m) {x : Int} (hx : x ∈ seen) : ∃ i, m.1[i]? = some (x, labelOf m.1 x) ∧ labelOf m.1 x = i + 1 := by
  obtain ⟨e, he, hex⟩ := List.mem_map.1 ((h.keys x).2 hx)
  have : (m.1.find? fun e => decide (e.1 = x)).isSome := by
    rw [List.find?_isSome]
    exact ⟨e, he, by simpa using hex⟩
  obtain ⟨e', he'⟩ := Option.isSome_iff_exists.1 this
  have hm := List.mem_of_find?_eq_some he'
  have hk : e'.1 = x := by simpa using List.find?_some he'
  obtain ⟨i, hi⟩ := List.mem_iff_getElem?.1 hm
  have hl : labelOf m.1 x = e'.2 := by
    unfold labelOf
    rw [he']
    rfl
  refine ⟨i, ?_, ?_⟩
  · rw [hi, hl, ← hk]
  · rw [hl]; exact h.label i e' hi

/-- C117, in part: `getCompactDisjSets()` gives two elements the same label exactly if they have the same entry, and the labels are 1, 2, ..., as many as there are different entries.
(This is right if every entry is a label of a set, as after `directJoin` only.) -/
theorem compact_values_partial (d : DSet) : ∃ c, compactValues d = .ok c ∧ c.length = d.sets.length ∧
    (∀ x y : Nat, x < d.sets.length → y < d.sets.length → (c[x]? = c[y]? ↔ d.sets[x]? = d.sets[y]?)) ∧ ∀ k, k ∈ c ↔ 1 ≤ k ∧ k ≤ d.sets.dedup.length := by
  have key : ∀ k ≤ d.sets.length, ∃ m, (List.range k).foldlM (fun (m : List (Int × Nat) × Nat) i => do
      let x ← vget d.sets i
      return insertLabel m x) ([], 1) = (.ok m : Res _) ∧ Labelled (d.sets.take k) m := by
    intro k
    induction k with
    | zero => intro _; exact ⟨_, rfl, rfl, by simp, by simp, by simp⟩
    | succ k ih =>
      intro hk
      obtain ⟨m, h1, h2⟩ := ih (by omega)
      refine ⟨insertLabel m (d.sets.getD k 0), ?_, ?_⟩
      · rw [List.range_succ, List.foldlM_append, h1, res_bind_ok, List.foldlM_cons, vget_getD (by omega), res_bind_ok, res_pure, res_bind_ok]
        rfl
      · rw [List.take_add_one, List.getElem?_eq_getElem (by omega), Option.toList_some, ← getD_of_lt (by omega)]
        exact labelled_insert h2 _
  obtain ⟨m, h1, h2⟩ := key _ (Nat.le_refl _)
  rw [List.take_length] at h2
  have hc : compactValues d = .ok ((List.range d.sets.length).map fun i => labelOf m.1 (d.sets.getD i 0)) := by
    unfold compactValues
    rw [h1, res_bind_ok]
    refine mapM_ok_of_forall fun i hi => ?_
    rw [vget_getD (List.mem_range.1 hi), res_bind_ok]
    rfl
  have hmem : ∀ {i : Nat}, i < d.sets.length → d.sets.getD i 0 ∈ d.sets := fun hi => by rw [getD_of_lt hi]; exact List.getElem_mem _
  refine ⟨_, hc, by simp, fun x y hx hy => ?_, fun k => ?_⟩
  · rw [List.getElem?_map, List.getElem?_map, List.getElem?_range hx, List.getElem?_range hy, List.getElem?_eq_getElem hx, List.getElem?_eq_getElem hy]
    simp only [Option.map_some, Option.some.injEq]
    rw [← getD_of_lt hx, ← getD_of_lt hy]
    refine ⟨fun e => ?_, fun e => by rw [e]⟩
    obtain ⟨i, i1, i2⟩ := labelOf_eq h2 (hmem hx)
    obtain ⟨j, j1, j2⟩ := labelOf_eq h2 (hmem hy)
    have : i = j := by omega
    subst this
    rw [i1] at j1
    exact (Prod.mk.inj (Option.some.inj j1)).1
  · have hlen : m.1.length = d.sets.dedup.length := by
      rw [← List.length_map (f := Prod.fst) (as := m.1)]
      refine List.Perm.length_eq ((List.perm_ext_iff_of_nodup h2.nodup (List.nodup_dedup _)).2 fun x => ?_)
      rw [h2.keys, List.mem_dedup]
    rw [List.mem_map, ← hlen]
    constructor
    · rintro ⟨i, hi, rfl⟩
      obtain ⟨j, j1, j2⟩ := labelOf_eq h2 (hmem (List.mem_range.1 hi))
      have := (List.getElem?_eq_some_iff.1 j1).1
      omega
    · rintro ⟨k1, k2⟩
      have hk : k - 1 < m.1.length := by omega
      have hin : (m.1[k - 1]).1 ∈ d.sets := (h2.keys _).1 (List.mem_map.2 ⟨_, List.getElem_mem _, rfl⟩)
      obtain ⟨i, hi, e⟩ := List.getElem_of_mem hin
      refine ⟨i, List.mem_range.2 hi, ?_⟩
      rw [getD_of_lt hi, e]
      obtain ⟨j, j1, j2⟩ := labelOf_eq h2 hin
      obtain ⟨j3, j4⟩ := List.getElem?_eq_some_iff.1 j1
      have : j = k - 1 := by
        refine (List.Nodup.getElem_inj_iff h2.nodup (i := j) (j := k - 1) (hi := by simpa using j3) (hj := by simpa using hk)).1 ?_
        rw [List.getElem_map, List.getElem_map, j4]
      omega

/-- C117, against the property: `n` elements, each in a set of its own, all get the label 1. -/
theorem compact_values_wrong (n : Nat) : compactValues (create n) = .ok (List.replicate n 1) := by
  obtain ⟨c, h1, h2, h3, h4⟩ := compact_values_partial (create n)
  have hl : (create n).sets.length = n := by simp [create]
  rw [hl] at h2
  rw [h1]
  congr 1
  refine List.eq_replicate_iff.2 ⟨h2, fun k hk => ?_⟩
  have := (h4 k).1 hk
  have hd : (create n).sets.dedup.length ≤ 1 := by
    cases n with
    | zero => simp [create]
    | succ n =>
      show (List.replicate (n + 1) (-1 : Int)).dedup.length ≤ 1
      rw [List.replicate_dedup (by omega)]
      simp
  omega

/-! ## Moving elements -/

/-- C117, against the property: `join` never joins anything. -/
theorem join_noop (d : DSet) (hv : Valid d.sets) (u v : Nat) (hu : u < d.sets.length) (hw : v < d.sets.length) : Run.Gives (join d u v) (· = some d) := by
  unfold join
  by_cases he : (u : Int) = v
  · rw [if_pos he]
    exact Run.gives_pure rfl
  · rw [if_neg he]
    obtain ⟨r0, h0⟩ := hv 0 (by omega)
    refine (find_is_root_of_zero d u hu r0 h0).bind ?_
    rintro _ rfl
    refine (find_is_root_of_zero d v hw r0 h0).bind ?_
    rintro _ rfl
    simp only [ne_eq, not_true_eq_false, if_false]
    exact Run.gives_pure rfl

/-- C117, against the property: after `reset(x)`, looking for the representative of `x` does not end. -/
theorem reset_then_find_never_ends (d : DSet) (x : Nat) (hx : x < d.sets.length) : ∃ d', resetAt d x = .ok (some d') ∧ ∀ o, ¬ findCompress d' x o := by
  refine ⟨{ d with sets := d.sets.set x (x : Int) }, ?_, ?_⟩
  · unfold resetAt
    rw [badIndex_false hx]
    simp only [Bool.false_eq_true, if_false, Int.toNat_natCast]
    rw [vset_of_lt hx, res_bind_ok]
    rfl
  · have hx' : x < ({ d with sets := d.sets.set x (x : Int) } : DSet).sets.length := by simpa using hx
    have hget : (d.sets.set x (x : Int))[x]? = some (x : Int) := by rw [getElem?_set_ite hx, if_pos rfl]
    have hloop : ∀ st o, ¬ Loop (climbBody (d.sets.set x (x : Int))) (st, x) o := by
      intro st o h
      generalize hs : (st, x) = s at h
      induction h generalizing st with
      | step hb _ ih =>
        subst hs
        unfold climbBody at hb
        rw [vget_of_some hget, res_bind_ok] at hb
        cases hb
        exact ih _ rfl
      | done hb =>
        subst hs
        unfold climbBody at hb
        rw [vget_of_some hget, res_bind_ok] at hb
        cases hb
      | fault hb =>
        subst hs
        unfold climbBody at hb
        rw [vget_of_some hget, res_bind_ok] at hb
        cases hb
    intro o h
    unfold findCompress at h
    rw [badIndex_false hx'] at h
    simp only [Bool.false_eq_true, if_false, Int.toNat_natCast, vget_of_some hget] at h
    rcases h with ⟨a, ha, h⟩ | ⟨f, hf, -⟩
    · cases ha
      rcases h with ⟨a, ha, -⟩ | ⟨f, hf, -⟩
      · exact hloop _ _ ha
      · exact hloop _ _ hf
    · cases hf

/-- C117, against the property: `reset(size)` writes behind the last element. -/
theorem reset_out_of_bounds (d : DSet) : resetAt d (d.sets.length : Int) = .error .outOfBounds := by
  unfold resetAt
  have : badIndex d (d.sets.length : Int) = false := by unfold badIndex; simp
  rw [this]
  simp only [Bool.false_eq_true, if_false, Int.toNat_natCast]
  rw [vset_of_ge (Nat.le_refl _), res_bind_error]

/-- C117. `directJoin(u, v)` makes `u` the entry of `v`, which `directFind` then reports; no other entry changes. -/
theorem direct_join_correct (d : DSet) (u : Int) (v : Nat) (hv : v < d.sets.length) : ∃ d', directJoin d u v = .ok (some d') ∧ d'.sets.length = d.sets.length ∧
    ∀ x : Nat, x < d.sets.length → directFind d' x = if x = v then .ok (some u) else directFind d x := by
  refine ⟨{ d with sets := d.sets.set v u }, ?_, by simp, fun x hx => ?_⟩
  · unfold directJoin
    rw [badIndex_false hv]
    simp only [Bool.false_eq_true, if_false, Int.toNat_natCast]
    rw [vset_of_lt hv, res_bind_ok]
    rfl
  · have hx' : x < ({ d with sets := d.sets.set v u } : DSet).sets.length := by simpa using hx
    unfold directFind
    rw [badIndex_false hx', badIndex_false hx]
    simp only [Bool.false_eq_true, if_false, Int.toNat_natCast]
    have : vget (d.sets.set v u) x = if x = v then .ok u else vget d.sets x := by
      rw [vget_of_lt (by simpa using hx), vget_of_lt hx, List.getElem_set]
      by_cases e : v = x
      · subst e; simp
      · rw [if_neg e, if_neg (Ne.symm e)]
    rw [this]
    split <;> rfl

/-- C117. `allToSingletons(arr, size)` gives every one of the first `size` elements its own number. -/
theorem all_to_singletons_correct (arr : List Int) (size : Nat) (h : size ≤ arr.length) :
    allToSingletons arr size = .ok ((List.range size).map (fun i : Nat => (i : Int)) ++ arr.drop size) := by
  unfold allToSingletons
  induction size with
  | zero => simp [res_pure]
  | succ k ih =>
    rw [List.range_succ, List.foldlM_append, ih (by omega), res_bind_ok, List.foldlM_cons, vset_of_lt (by simp; omega), res_bind_ok, List.foldlM_nil, res_pure]
    congr 1
    rw [List.set_append_right _ _ (by simp), List.map_append, List.append_assoc]
    congr 1
    have e : arr.drop k = arr[k]'(by omega) :: arr.drop (k + 1) := List.drop_eq_getElem_cons (by omega)
    rw [List.length_map, List.length_range, Nat.sub_self, e]
    rfl

/-- C117. `unionBySizeAtomic(u, v)`, called by one thread with a representative `u`, joins the sets of `u` and `v` and changes no other. -/
theorem union_by_size_atomic_partial (d : DSet) {n : Nat} {E : List (Nat × Nat)} (h : St n E d) (u v : Nat) (hu : Root d.sets u u) (hw : v < n) :
    Run.Gives (unionBySizeAtomic d u v) fun o => ∃ d', o = some d' ∧ St n (E ++ [(u, v)]) d' := by
  unfold unionBySizeAtomic
  refine (find_step keeps_true h trivial hw).bind ?_
  rintro ⟨d1, _⟩ ⟨p1, -, rv, rfl, p4, p5⟩
  dsimp only at p1 p4 p5 ⊢
  have hu1 : Root d1.sets u u := (p5 u u).2 hu
  split
  · rename_i e
    subst e
    exact Run.gives_pure ⟨d1, rfl, p1.again hu1 p4⟩
  · rename_i hne
    obtain ⟨ku, hku⟩ := hu1.isRoot
    obtain ⟨kv, hkv⟩ := p4.isRoot
    have hrv := (Root.self p4).lt
    have hul := hu1.lt
    refine (Run.gives_lift (vget_of_some hku) (Q := (· = Int.negSucc ku)) rfl).bind ?_
    rintro _ rfl
    refine (Run.gives_lift (vget_of_some hkv) (Q := (· = Int.negSucc kv)) rfl).bind ?_
    rintro _ rfl
    have e1 : Int.negSucc kv + Int.negSucc ku = Int.negSucc (kv + ku + 1) := by omega
    have e2 : Int.negSucc ku + Int.negSucc kv = Int.negSucc (ku + kv + 1) := by omega
    obtain ⟨s, k1, k2, hs, hsl, hs'⟩ : ∃ s k1 k2, (if Int.negSucc ku > Int.negSucc kv then vset d1.sets rv (Int.negSucc kv + Int.negSucc ku) else vset d1.sets u (Int.negSucc ku + Int.negSucc kv)) = .ok s ∧
        s.length = d1.sets.length ∧ ∀ x : Nat, s[x]? = if x = u then some (Int.negSucc k1) else if x = rv then some (Int.negSucc k2) else d1.sets[x]? := by
      split
      · refine ⟨_, ku, kv + ku + 1, vset_of_lt hrv, by simp, fun x => ?_⟩
        rw [getElem?_set_ite hrv, e1]
        by_cases f1 : x = u
        · rw [if_pos f1, f1, if_neg (Ne.symm hne), hku]
        · rw [if_neg f1]
          by_cases f2 : x = rv
          · rw [if_pos f2, if_pos f2.symm]
          · rw [if_neg f2, if_neg (Ne.symm f2)]
      · refine ⟨_, ku + kv + 1, kv, vset_of_lt hul, by simp, fun x => ?_⟩
        rw [getElem?_set_ite hul, e2]
        by_cases f1 : x = u
        · rw [if_pos f1, if_pos f1.symm]
        · rw [if_neg f1, if_neg (Ne.symm f1)]
          by_cases f2 : x = rv
          · rw [if_pos f2, f2, hkv]
          · rw [if_neg f2]
    refine (Run.gives_lift hs (Q := (· = s)) rfl).bind ?_
    rintro _ rfl
    by_cases hlt : u < v
    · rw [if_pos hlt]
      refine (Run.gives_lift (vset_of_lt (by omega)) (Q := (· = _)) rfl).bind ?_
      rintro _ rfl
      refine Run.gives_pure ⟨_, rfl, ?_⟩
      obtain ⟨m1, m2, -⟩ := absorb (s := d1.sets) (s' := List.set _ u (rv : Int)) (k := k2) p1.valid hkv hku (Ne.symm hne) (by simpa using hsl) (by
        intro x
        rw [getElem?_set_ite (by omega), hs']
        by_cases f1 : x = u
        · rw [if_pos f1.symm, if_pos f1]
        · rw [if_neg (Ne.symm f1), if_neg f1, if_neg f1])
      exact p1.link hu1 p4 (Or.inr ⟨rfl, rfl⟩) (by simpa using hsl) rfl m1 m2
    · rw [if_neg hlt]
      refine (Run.gives_lift (vset_of_lt (by omega)) (Q := (· = _)) rfl).bind ?_
      rintro _ rfl
      refine Run.gives_pure ⟨_, rfl, ?_⟩
      obtain ⟨m1, m2, -⟩ := absorb (s := d1.sets) (s' := List.set _ rv (u : Int)) (k := k1) p1.valid hku hkv hne (by simpa using hsl) (by
        intro x
        rw [getElem?_set_ite (by omega), hs']
        by_cases f1 : x = rv
        · rw [if_pos f1.symm, if_pos f1]
        · rw [if_neg (Ne.symm f1), if_neg f1]
          by_cases f2 : x = u
          · rw [if_pos f2, if_neg f1]
          · rw [if_neg f2, if_neg f1])
      exact p1.link hu1 p4 (Or.inl ⟨rfl, rfl⟩) (by simpa using hsl) rfl m1 m2

/-- C117, against the property: `unionBySizeAtomic(2, 0)` on the sets {0, 1} and {2} makes 2 the representative of all three, with the stored size 1. -/
theorem union_by_size_atomic_wrong_size : Sized [-2, 0, -1] ∧ Run.Gives (unionBySizeAtomic ⟨[-2, 0, -1], 2⟩ 2 0) (· = some ⟨[2, 0, -1], 2⟩) ∧ ¬ Sized [2, 0, -1] := by
  have r0 : Root [-2, 0, -1] 0 0 := .root (k := 1) rfl
  have r1 : Root [-2, 0, -1] 1 0 := .up (p := 0) rfl r0
  have r2 : Root [-2, 0, -1] 2 2 := .root (k := 0) rfl
  have q2 : Root [2, 0, -1] 2 2 := .root (k := 0) rfl
  have q0 : Root [2, 0, -1] 0 2 := .up (p := 2) rfl q2
  refine ⟨?_, ?_, ?_⟩
  · intro r k h
    have hr : r < 3 := (List.getElem?_eq_some_iff.1 h).1
    have key : ∀ (r : Nat) (S : Finset Nat), (∀ x, x ∈ S ↔ x < 3 ∧ Root [-2, 0, -1] x r) → members [-2, 0, -1] r = S := by
      intro r S hS
      ext x
      rw [hS]
      simp [members]
    have cases3 : ∀ {P : Nat → Prop}, P 0 → P 1 → P 2 → ∀ x < 3, P x := by
      intro P a b c x hx
      rcases x with _ | _ | _ | x
      · exact a
      · exact b
      · exact c
      · omega
    rcases r with _ | _ | _ | r
    · cases h
      rw [key 0 {0, 1} fun x => ?_]
      · rfl
      · by_cases hx : x < 3
        · revert x
          refine cases3 ?_ ?_ ?_
          · exact iff_of_true (by simp) ⟨by decide, r0⟩
          · exact iff_of_true (by simp) ⟨by decide, r1⟩
          · exact iff_of_false (by simp) fun h => absurd (r2.det h.2) (by decide)
        · exact iff_of_false (by simp; omega) fun h => hx h.1
    · cases h
    · cases h
      rw [key 2 {2} fun x => ?_]
      · rfl
      · by_cases hx : x < 3
        · revert x
          refine cases3 ?_ ?_ ?_
          · exact iff_of_false (by simp) fun h => absurd (r0.det h.2) (by decide)
          · exact iff_of_false (by simp) fun h => absurd (r1.det h.2) (by decide)
          · exact iff_of_true (by simp) ⟨by decide, r2⟩
        · exact iff_of_false (by simp; omega) fun h => hx h.1
    · omega
  · unfold unionBySizeAtomic
    refine Run.Gives.bind (Q := (· = (⟨[-2, 0, -1], 2⟩, some 0))) ?_ ?_
    · unfold findCompress
      refine (Run.gives_lift (Q := (· = -2)) rfl rfl).bind ?_
      rintro _ rfl
      exact Run.gives_pure rfl
    · rintro _ rfl
      refine (Run.gives_lift (Q := (· = -1)) rfl rfl).bind ?_
      rintro _ rfl
      refine (Run.gives_lift (Q := (· = -2)) rfl rfl).bind ?_
      rintro _ rfl
      refine (Run.gives_lift (Q := (· = [-3, 0, -1])) rfl rfl).bind ?_
      rintro _ rfl
      refine (Run.gives_lift (Q := (· = [2, 0, -1])) rfl rfl).bind ?_
      rintro _ rfl
      exact Run.gives_pure rfl
  · intro h
    have h1 := h 2 0 rfl
    obtain ⟨a, ha⟩ := Finset.card_eq_one.1 h1
    have m0 : 0 ∈ members [2, 0, -1] 2 := by simp [members, q0]
    have m2 : 2 ∈ members [2, 0, -1] 2 := by simp [members, q2]
    rw [ha, Finset.mem_singleton] at m0 m2
    omega

/-! ## The hypotheses are met -/

/-- Six elements; 0, 3 and 5 are joined by size and by height, 1 and 4 too, with queries in between. -/
def exCalls : List Call := [.bySize 3 5, .find 5, .byHeight 1 4, .bySize 0 5, .find 0, .byHeight 3 0]

example : Run.Gives (do
    let d ← history 6 exCalls
    let p ← findCompress d (0 : Nat)
    let q ← findCompress p.1 (3 : Nat)
    return (p.2, q.2)) fun o => ∃ a, o = (some a, some a) := by
  refine (history_representatives 6 exCalls (by simp [exCalls, Call.Below]) 0 3 (by decide) (by decide)).mono ?_
  rintro _ ⟨a, b, rfl, -, -, -, -, h⟩
  have hc : Conn (Pairs (joined exCalls)) 0 3 := .bwd (.of (R := Pairs (joined exCalls)) (y := 5) (by simp [Pairs, joined, exCalls, Call.pair])) (by simp [Pairs, joined, exCalls, Call.pair])
  rw [h.2 hc]
  exact ⟨_, rfl⟩

example : Run.Gives (do let d ← history 6 exCalls; getSubsets d) (· = some [[0, 1, 2, 3, 4, 5]]) := get_subsets_one_set 6 (by decide) exCalls (by simp [exCalls, Call.Below])

example : Run.Gives (history 6 exCalls) fun d => ∃ l, rootIndices d = .ok l ∧ l.Pairwise (· < ·) :=
  (for_each_root_index_correct 6 exCalls (by simp [exCalls, Call.Below])).mono fun _ ⟨l, h1, h2, _⟩ => ⟨l, h1, h2⟩

example : Run.Gives (history 6 [.bySize 3 5, .bySize 0 5]) fun d => ∃ l, rootIndices d = .ok l ∧
    rootEntries d = .ok (l.map fun r => -((component (Pairs [(3, 5), (0, 5)]) 6 r).card : Int)) :=
  for_each_root_correct 6 [.bySize 3 5, .bySize 0 5] (by simp [Call.Below]) (by simp)

example : compactValues ⟨[4, 4, 2, 4, 7], 5⟩ = .ok [1, 1, 2, 1, 3] := by decide

example : Run.Gives (unionBySizeAtomic (create 3) 2 0) fun o => ∃ d, o = some d ∧ Same d.sets 0 2 ∧ ¬ Same d.sets 0 1 := by
  refine (union_by_size_atomic_partial (create 3) (st_create 3) 2 0 (.root (k := 0) rfl) (by decide)).mono ?_
  rintro _ ⟨d, rfl, h⟩
  refine ⟨d, rfl, (h.same 0 2 (by decide) (by decide)).2 (.bwd (.refl 0) (by simp [Pairs])), fun hs => ?_⟩
  have := ((h.same 0 1 (by decide) (by decide)).1 hs).const (fun z => decide (z = 1)) fun a b hab => by
    have : (a, b) = (2, 0) := by simpa [Pairs] using hab
    cases this
    rfl
  exact absurd this (by decide)

end NW.DsetOut
