import Verif.Model.BfsExp
import Verif.Props.Dobfs

/-! # Lemmas on the level-by-level searches -/

namespace NW.BfsExp
open Spec Bfs Dobfs

variable {α : Type}

/-- What the caller must provide. -/
structure Ok (inf : Nat) (g : Rows α) (root : Nat) : Prop where
  inRange : InRange g
  rootLt : root < g.length
  small : g.length ≤ inf

/-- The entry of `v` is not `d`. -/
def NotAt (d : Nat) (l : List Nat) (v : Nat) : Prop := ∃ x, l[v]? = some x ∧ x ≠ d

/-- `v` counts as visited. -/
def Marked (ver : Ver) (inf : Nat) (a : Arrays) (v : Nat) : Prop :=
  match ver with
  | .v7 | .v8 | .v9 => NotAt inf a.mark v
  | .topDown => NotAt inf a.par v
  | .bitmap => NotAt 0 a.mark v

/-- The write that makes `v` count as visited. -/
def marker : Ver → Act
  | .topDown => .par
  | _ => .mark

/-- The parents are right after `l` levels. -/
def Pars (inf : Nat) (g : Rows α) (root l : Nat) (par : List Nat) : Prop :=
  par.length = g.length ∧ ∀ u pu, par[u]? = some pu → (Near g root l u → pu ≠ inf) ∧ (pu ≠ inf → Near g root (l + 1) u ∧ Good g root u pu)

structure Arr (ver : Ver) (inf : Nat) (g : Rows α) (root l : Nat) (a : Arrays) : Prop where
  pars : Pars inf g root l a.par
  lenM : ver ≠ .topDown → a.mark.length = g.length
  bins : a.q2.length = ver.bins
  lv : ver = .v7 → ∀ w x : Nat, a.mark[w]? = some x → x ≠ inf → x ≤ l + 1
  marked : ∀ w, Marked ver inf a w → Near g root (l + 1) w
  near : ∀ w, Near g root l w → Marked ver inf a w
  newq : ∀ w ∈ a.q2.flatten, IsDist g root w (l + 1)

def At (ver : Ver) (inf : Nat) (g : Rows α) (root l : Nat) (a : Arrays) (v : Nat) : Pc → Prop
  | .start => True
  | .claim old => (ver = .v7 ∧ old = inf) ∨ ver = .bitmap
  | .skip => Marked ver inf a v
  | .todo as => IsDist g root v (l + 1) ∧ (.push ∈ as ∨ v ∈ a.q2.flatten) ∧ (.par ∈ as ∨ NotAt inf a.par v) ∧
      (marker ver ∈ as ∨ Marked ver inf a v) ∧ (.mark ∈ as → ver = .v8 ∨ ver = .v9)

structure Inv (ver : Ver) (inf : Nat) (g : Rows α) (root l : Nat) (ts : List Task) (a : Arrays) : Prop where
  arr : Arr ver inf g root l a
  task : ∀ t ∈ ts, IsDist g root t.u l ∧ Edge g t.u t.v ∧ At ver inf g root l a t.v t.pc
  cover : ∀ u v, IsDist g root u l → Edge g u v → ∃ t ∈ ts, t.u = u ∧ t.v = v
  claimant : ∀ w, Marked ver inf a w → Near g root l w ∨ ∃ t ∈ ts, t.v = w ∧ ∃ as, t.pc = .todo as

/-- Nothing is lost from `a` to `a'`. -/
structure Grows (ver : Ver) (inf : Nat) (a a' : Arrays) : Prop where
  marked : ∀ w, Marked ver inf a w → Marked ver inf a' w
  q2 : ∀ w, w ∈ a.q2.flatten → w ∈ a'.q2.flatten
  par : ∀ w, NotAt inf a.par w → NotAt inf a'.par w

theorem Grows.refl (ver : Ver) (inf : Nat) (a : Arrays) : Grows ver inf a a := ⟨fun _ h => h, fun _ h => h, fun _ h => h⟩

theorem At.grows {ver : Ver} {inf : Nat} {g : Rows α} {root l : Nat} {a a' : Arrays} (hg : Grows ver inf a a') {v : Nat} {pc : Pc}
    (h : At ver inf g root l a v pc) : At ver inf g root l a' v pc := by
  cases pc with
  | start => trivial
  | claim old => exact h
  | skip => exact hg.marked _ h
  | todo as =>
    obtain ⟨h1, h2, h3, h4, h5⟩ := h
    exact ⟨h1, h2.imp_right (hg.q2 _), h3.imp_right (hg.par _), h4.imp_right (hg.marked _), h5⟩

theorem mem_set_or {β : Type} {l : List β} {i : Nat} {x y z : β} (hi : l[i]? = some x) (h : z ∈ l) : z = x ∨ z ∈ l.set i y := by
  obtain ⟨j, hj⟩ := List.getElem?_of_mem h
  by_cases c : i = j
  · subst c; rw [hi] at hj; cases hj; exact Or.inl rfl
  · exact Or.inr (List.mem_of_getElem? (by rw [getElem?_set_other c]; exact hj))

theorem mem_set_self {β : Type} {l : List β} {i : Nat} {x y : β} (hi : l[i]? = some x) : y ∈ l.set i y :=
  List.mem_of_getElem? (getElem?_set_same hi)

theorem Inv.step {ver : Ver} {inf : Nat} {g : Rows α} {root l : Nat} {ts : List Task} {a a' : Arrays} (hI : Inv ver inf g root l ts a)
    {i : Nat} {t : Task} (hi : ts[i]? = some t) (hgr : Grows ver inf a a') (hA : Arr ver inf g root l a') {pc : Pc}
    (hat : At ver inf g root l a' t.v pc) (hnew : ∀ w, Marked ver inf a' w → Marked ver inf a w ∨ (w = t.v ∧ ∃ as, pc = .todo as))
    (htodo : ∀ as, t.pc = .todo as → ∃ as', pc = .todo as') : Inv ver inf g root l (ts.set i { t with pc := pc }) a' := by
  refine ⟨hA, ?_, ?_, ?_⟩
  · intro s hs
    rcases List.mem_or_eq_of_mem_set hs with hs | rfl
    · obtain ⟨h1, h2, h3⟩ := hI.task s hs
      exact ⟨h1, h2, h3.grows hgr⟩
    · obtain ⟨h1, h2, -⟩ := hI.task t (List.mem_of_getElem? hi)
      exact ⟨h1, h2, hat⟩
  · intro u v hu he
    obtain ⟨s, hs, h1, h2⟩ := hI.cover u v hu he
    rcases mem_set_or (y := { t with pc := pc }) hi hs with rfl | hs
    · exact ⟨_, mem_set_self hi, h1, h2⟩
    · exact ⟨s, hs, h1, h2⟩
  · intro w hw
    rcases hnew w hw with hw | ⟨rfl, as, rfl⟩
    · rcases hI.claimant w hw with h | ⟨s, hs, h1, as, h2⟩
      · exact Or.inl h
      · right
        rcases mem_set_or (y := { t with pc := pc }) hi hs with rfl | hs
        · obtain ⟨as', h3⟩ := htodo as h2
          exact ⟨_, mem_set_self hi, h1, as', h3⟩
        · exact ⟨s, hs, h1, as, h2⟩
    · exact Or.inr ⟨_, mem_set_self hi, rfl, as, rfl⟩

theorem NotAt.set_other {d : Nat} {l : List Nat} {i y w : Nat} (h : NotAt d (l.set i y) w) : NotAt d l w ∨ w = i := by
  obtain ⟨x, hx, hne⟩ := h
  rcases getElem?_set_cases hx with ⟨rfl, rfl⟩ | ⟨-, hx⟩
  · exact Or.inr rfl
  · exact Or.inl ⟨x, hx, hne⟩

theorem NotAt.set {d : Nat} {l : List Nat} {i y w : Nat} (hy : y ≠ d) (h : NotAt d l w) : NotAt d (l.set i y) w := by
  obtain ⟨x, hx, hne⟩ := h
  by_cases c : i = w
  · subst c; exact ⟨y, getElem?_set_same hx, hy⟩
  · exact ⟨x, by rw [getElem?_set_other c]; exact hx, hne⟩

theorem notAt_set_self {d : Nat} {l : List Nat} {i y : Nat} (hy : y ≠ d) (h : i < l.length) : NotAt d (l.set i y) i :=
  ⟨y, getElem?_set_same (List.getElem?_eq_getElem h), hy⟩

theorem bin_lt (ver : Ver) (u : Nat) : ver.bin u < ver.bins := by
  cases ver with
  | v7 => exact Nat.zero_lt_one
  | v8 => exact Nat.zero_lt_one
  | v9 => exact Nat.lt_of_le_of_lt Nat.and_le_right (by decide)
  | topDown => exact Nat.mod_lt _ (by decide)
  | bitmap => exact Nat.mod_lt _ (by decide)

def Pc.weight : Pc → Nat
  | .start => 6
  | .claim _ => 5
  | .todo as => as.length
  | .skip => 0

section
variable {ver : Ver} {inf : Nat} {g : Rows α} {root l : Nat} {a : Arrays}

/-- An unmarked neighbour of a vertex of level `l` is on level `l + 1`. -/
theorem Arr.dist_of_unmarked (hA : Arr ver inf g root l a) {u v : Nat} (hu : IsDist g root u l) (he : Edge g u v)
    (h : ¬ Marked ver inf a v) : IsDist g root v (l + 1) := (dist_of_edge hu.near he fun hn => h (hA.near v hn)).2

theorem lvl_small (hc : Ok inf g root) {v d : Nat} (h : IsDist g root v d) : d % (inf + 1) = d ∧ d < inf := by
  have := h.lt_length hc.inRange hc.rootLt
  have := hc.small
  exact ⟨Nat.mod_eq_of_lt (by omega), by omega⟩

theorem par_set (hc : Ok inf g root) (hp : Pars inf g root l a.par) {u v : Nat} (hu : IsDist g root u l) (he : Edge g u v)
    (hv : IsDist g root v (l + 1)) : u ≠ inf ∧ Pars inf g root l (a.par.set v u) := by
  have hun := hu.1.lt hc.inRange hc.rootLt
  have hui : u ≠ inf := by have := hc.small; omega
  refine ⟨hui, by simp [hp.1], ?_⟩
  intro w pw hw
  rcases getElem?_set_cases hw with ⟨rfl, rfl⟩ | ⟨hne, hw⟩
  · refine ⟨fun _ => hui, fun _ => ⟨hv.near, ?_⟩⟩
    have hvr : v ≠ root := by
      rintro rfl
      exact hv.not_near ⟨0, Nat.zero_le _, IsDist.zero _ _⟩
    unfold Good
    rw [if_neg hvr]
    exact ⟨he, l, hu, hv⟩
  · exact hp.2 w pw hw

theorem act_step (hc : Ok inf g root) (hA : Arr ver inf g root l a) {u v : Nat} (hu : IsDist g root u l) (he : Edge g u v) {x : Act} {xs : List Act}
    (hat : At ver inf g root l a v (.todo (x :: xs))) :
    ∃ a', act ver inf (l + 1) a u v x = .ok a' ∧ Grows ver inf a a' ∧ Arr ver inf g root l a' ∧ At ver inf g root l a' v (.todo xs) ∧
      ∀ w, Marked ver inf a' w → Marked ver inf a w ∨ w = v := by
  obtain ⟨h1, h2, h3, h4, h5⟩ := hat
  have hvn : v < g.length := h1.1.lt hc.inRange hc.rootLt
  cases x with
  | push =>
    have hb : ver.bin u < a.q2.length := by rw [hA.bins]; exact bin_lt ver u
    have hgb : a.q2[ver.bin u]? = some a.q2[ver.bin u] := List.getElem?_eq_getElem hb
    simp only [act]
    rw [vget_eq_ok.2 hgb, res_bind_ok, vset_of_lt hb, res_bind_ok]
    have hm : ∀ w, Marked ver inf { a with q2 := a.q2.set (ver.bin u) (a.q2[ver.bin u] ++ [v]) } w ↔ Marked ver inf a w := by
      intro w; cases ver <;> exact Iff.rfl
    have hq := fun w => mem_flatten_set hgb v w
    refine ⟨_, rfl, ⟨fun w => (hm w).2, fun w hw => (hq w).2 (Or.inl hw), fun _ h => h⟩, ?_, ?_, fun w hw => Or.inl ((hm w).1 hw)⟩
    · refine ⟨hA.pars, hA.lenM, by simpa using hA.bins, hA.lv, fun w hw => hA.marked w ((hm w).1 hw), fun w hw => (hm w).2 (hA.near w hw), ?_⟩
      intro w hw
      rcases (hq w).1 hw with hw | rfl
      · exact hA.newq w hw
      · exact h1
    · refine ⟨h1, Or.inr ((hq v).2 (Or.inr rfl)), h3.imp_left fun h => ?_, ?_, fun h => h5 (List.mem_cons_of_mem _ h)⟩
      · exact (List.mem_cons.1 h).resolve_left (by decide)
      · rw [hm v]
        exact h4.imp_left fun h => (List.mem_cons.1 h).resolve_left (by cases ver <;> decide)
  | mark =>
    have hv := h5 (by simp)
    have hne : ver ≠ .topDown := by rcases hv with rfl | rfl <;> decide
    have h7 : ver ≠ .v7 := by rcases hv with rfl | rfl <;> decide
    have hml : v < a.mark.length := by rw [hA.lenM hne]; exact hvn
    obtain ⟨hl1, hl2⟩ := lvl_small hc h1
    have hli : l + 1 ≠ inf := by omega
    simp only [act]
    rw [hl1, vset_of_lt hml, res_bind_ok]
    have hmk : ∀ b : Arrays, ∀ w, Marked ver inf b w ↔ NotAt inf b.mark w := by
      intro b w; rcases hv with rfl | rfl <;> exact Iff.rfl
    refine ⟨_, rfl, ⟨fun w hw => (hmk _ w).2 (((hmk _ w).1 hw).set hli), fun _ h => h, fun _ h => h⟩, ?_, ?_, ?_⟩
    · refine ⟨hA.pars, fun h => by simpa using hA.lenM h, hA.bins, fun h => absurd h h7, ?_, ?_, hA.newq⟩
      · intro w hw
        rcases ((hmk _ w).1 hw).set_other with hw | rfl
        · exact hA.marked w ((hmk _ w).2 hw)
        · exact h1.near
      · intro w hw
        exact (hmk _ w).2 (((hmk _ w).1 (hA.near w hw)).set hli)
    · refine ⟨h1, h2.imp_left fun h => (List.mem_cons.1 h).resolve_left (by decide), h3.imp_left fun h => (List.mem_cons.1 h).resolve_left (by decide),
        Or.inr ((hmk _ v).2 (notAt_set_self hli hml)), fun h => h5 (List.mem_cons_of_mem _ h)⟩
    · intro w hw
      exact (((hmk _ w).1 hw).set_other).imp_left (hmk _ w).2
  | par =>
    obtain ⟨hui, hp⟩ := par_set hc hA.pars hu he h1
    have hpl : v < a.par.length := by rw [hA.pars.1]; exact hvn
    simp only [act]
    rw [vset_of_lt hpl, res_bind_ok]
    have hmk : ∀ w, Marked ver inf a w → Marked ver inf { a with par := a.par.set v u } w := by
      intro w hw
      cases ver <;> first | exact hw | exact NotAt.set hui hw
    have hmk' : ∀ w, Marked ver inf { a with par := a.par.set v u } w → Marked ver inf a w ∨ w = v := by
      intro w hw
      cases ver <;> first | exact Or.inl hw | exact NotAt.set_other hw
    refine ⟨_, rfl, ⟨hmk, fun _ h => h, fun w hw => hw.set hui⟩, ?_, ?_, hmk'⟩
    · refine ⟨hp, hA.lenM, hA.bins, hA.lv, ?_, fun w hw => hmk w (hA.near w hw), hA.newq⟩
      intro w hw
      rcases hmk' w hw with hw | rfl
      · exact hA.marked w hw
      · exact h1.near
    · refine ⟨h1, h2.imp_left fun h => (List.mem_cons.1 h).resolve_left (by decide), Or.inr (notAt_set_self hui hpl), ?_,
        fun h => h5 (List.mem_cons_of_mem _ h)⟩
      by_cases ct : ver = .topDown
      · subst ct; exact Or.inr (notAt_set_self hui hpl)
      · rcases h4 with h | h
        · left
          exact (List.mem_cons.1 h).resolve_left (by cases ver <;> first | exact absurd rfl ct | decide)
        · exact Or.inr (hmk v h)

theorem test_step (hc : Ok inf g root) (hA : Arr ver inf g root l a) {u v : Nat} (hu : IsDist g root u l) (he : Edge g u v) :
    ∃ pc, test ver inf (l + 1) a v = .ok pc ∧ At ver inf g root l a v pc ∧ pc.weight < 6 := by
  have hvn : v < g.length := hc.inRange _ _ he
  have hpl : v < a.par.length := by rw [hA.pars.1]; exact hvn
  have hml : ver ≠ .topDown → v < a.mark.length := fun h => by rw [hA.lenM h]; exact hvn
  have key : ∀ (d : Nat) (arr : List Nat) (h : v < arr.length), (∀ w, Marked ver inf a w ↔ NotAt d arr w) →
      (arr[v] = d → IsDist g root v (l + 1)) ∧ (arr[v] ≠ d → Marked ver inf a v) := by
    intro d arr h hm
    refine ⟨fun hd => hA.dist_of_unmarked hu he fun hk => ?_, fun hd => (hm v).2 ⟨_, List.getElem?_eq_getElem h, hd⟩⟩
    obtain ⟨x, hx, hne⟩ := (hm v).1 hk
    rw [List.getElem?_eq_getElem h] at hx
    cases hx; exact hne hd
  cases ver with
  | v7 =>
    have hl := hml (by decide)
    obtain ⟨k1, k2⟩ := key inf a.mark hl (fun _ => Iff.rfl)
    simp only [test]
    rw [vget_of_lt hl, res_bind_ok]
    refine ⟨_, rfl, ?_⟩
    by_cases c : a.mark[v] = inf
    · obtain ⟨hl1, hl2⟩ := lvl_small hc (k1 c)
      rw [hl1, c, if_pos hl2]
      exact ⟨Or.inl ⟨rfl, rfl⟩, by simp [Pc.weight]⟩
    · have h1 := hA.lv rfl v _ (List.getElem?_eq_getElem hl) c
      by_cases hlt : (l + 1) % (inf + 1) < a.mark[v]
      · -- the level wraps only beyond the last level
        exfalso
        have hu' := hu.lt_length hc.inRange hc.rootLt
        have := hc.small
        rw [Nat.mod_eq_of_lt (by omega)] at hlt
        omega
      · rw [if_neg hlt]
        exact ⟨k2 c, by simp [Pc.weight]⟩
  | v8 =>
    have hl := hml (by decide)
    obtain ⟨k1, k2⟩ := key inf a.mark hl (fun _ => Iff.rfl)
    simp only [test]
    rw [vget_of_lt hl, res_bind_ok]
    refine ⟨_, rfl, ?_⟩
    split
    · rename_i c
      exact ⟨⟨k1 c, by simp, by simp, by simp [marker], by simp⟩, by simp [Pc.weight]⟩
    · rename_i c
      exact ⟨k2 c, by simp [Pc.weight]⟩
  | v9 =>
    have hl := hml (by decide)
    obtain ⟨k1, k2⟩ := key inf a.mark hl (fun _ => Iff.rfl)
    simp only [test]
    rw [vget_of_lt hl, res_bind_ok]
    refine ⟨_, rfl, ?_⟩
    split
    · rename_i c
      exact ⟨⟨k1 c, by simp, by simp, by simp [marker], by simp⟩, by simp [Pc.weight]⟩
    · rename_i c
      exact ⟨k2 c, by simp [Pc.weight]⟩
  | topDown =>
    obtain ⟨k1, k2⟩ := key inf a.par hpl (fun _ => Iff.rfl)
    simp only [test]
    rw [vget_of_lt hpl, res_bind_ok]
    refine ⟨_, rfl, ?_⟩
    split
    · rename_i c
      exact ⟨⟨k1 c, by simp, by simp, by simp [marker], by simp⟩, by simp [Pc.weight]⟩
    · rename_i c
      exact ⟨k2 c, by simp [Pc.weight]⟩
  | bitmap =>
    have hl := hml (by decide)
    obtain ⟨k1, k2⟩ := key 0 a.mark hl (fun _ => Iff.rfl)
    simp only [test]
    rw [vget_of_lt hl, res_bind_ok]
    refine ⟨_, rfl, ?_⟩
    split
    · exact ⟨Or.inr rfl, by simp [Pc.weight]⟩
    · rename_i c
      exact ⟨k2 c, by simp [Pc.weight]⟩

theorem claim_step (hc : Ok inf g root) (hA : Arr ver inf g root l a) {u v old : Nat} (hu : IsDist g root u l) (he : Edge g u v)
    (hat : At ver inf g root l a v (.claim old)) :
    ∃ a' pc, claim ver inf (l + 1) a v old = .ok (a', pc) ∧ Grows ver inf a a' ∧ Arr ver inf g root l a' ∧ At ver inf g root l a' v pc ∧ pc.weight < 5 ∧
      ∀ w, Marked ver inf a' w → Marked ver inf a w ∨ (w = v ∧ ∃ as, pc = .todo as) := by
  have hvn : v < g.length := hc.inRange _ _ he
  rcases hat with ⟨rfl, rfl⟩ | rfl
  · have hl : v < a.mark.length := by rw [hA.lenM (by decide)]; exact hvn
    have hv := List.getElem?_eq_getElem hl
    simp only [claim]
    rw [vget_of_lt hl, res_bind_ok]
    by_cases c : a.mark[v] = old
    · have hd := hA.dist_of_unmarked hu he (by
        rintro ⟨x, hx, hne⟩
        rw [hv] at hx; cases hx; exact hne c)
      obtain ⟨hl1, hl2⟩ := lvl_small hc hd
      have hli : l + 1 ≠ old := by omega
      rw [if_pos c, hl1, vset_of_lt hl, res_bind_ok]
      refine ⟨_, _, rfl, ⟨fun w hw => NotAt.set hli hw, fun _ h => h, fun _ h => h⟩, ?_, ?_, by simp [Pc.weight], ?_⟩
      · refine ⟨hA.pars, fun h => by simpa using hA.lenM h, hA.bins, ?_, ?_, fun w hw => NotAt.set hli (hA.near w hw), hA.newq⟩
        · intro _ w x hw hne
          rcases getElem?_set_cases hw with ⟨rfl, rfl⟩ | ⟨-, hw⟩
          · exact Nat.le_refl _
          · exact hA.lv rfl w x hw hne
        · intro w hw
          rcases NotAt.set_other hw with hw | rfl
          · exact hA.marked w hw
          · exact hd.near
      · exact ⟨hd, by simp, by simp, Or.inr (notAt_set_self hli hl), by simp⟩
      · intro w hw
        rcases NotAt.set_other hw with hw | rfl
        · exact Or.inl hw
        · exact Or.inr ⟨rfl, _, rfl⟩
    · have h1 := hA.lv rfl v _ hv c
      have hu' := hu.lt_length hc.inRange hc.rootLt
      have := hc.small
      rw [if_neg c, Nat.mod_eq_of_lt (by omega), if_pos h1]
      exact ⟨a, .skip, rfl, .refl _ _ _, hA, ⟨_, hv, c⟩, by simp [Pc.weight], fun w hw => Or.inl hw⟩
  · have hl : v < a.mark.length := by rw [hA.lenM (by decide)]; exact hvn
    have hv := List.getElem?_eq_getElem hl
    simp only [claim]
    rw [vget_of_lt hl, res_bind_ok, vset_of_lt hl, res_bind_ok]
    have hnear : Near g root (l + 1) v := hu.near.step he
    have hgr : Grows .bitmap inf a { a with mark := a.mark.set v 1 } := ⟨fun w hw => NotAt.set (by decide) hw, fun _ h => h, fun _ h => h⟩
    have hA' : Arr .bitmap inf g root l { a with mark := a.mark.set v 1 } := by
      refine ⟨hA.pars, fun h => by simpa using hA.lenM h, hA.bins, (fun h => by cases h), ?_, fun w hw => NotAt.set (by decide) (hA.near w hw), hA.newq⟩
      intro w hw
      rcases NotAt.set_other hw with hw | rfl
      · exact hA.marked w hw
      · exact hnear
    have hself : Marked .bitmap inf { a with mark := a.mark.set v 1 } v := notAt_set_self (by decide) hl
    refine ⟨_, _, rfl, hgr, hA', ?_⟩
    by_cases c : a.mark[v] = 0
    · have hd := hA.dist_of_unmarked hu he (by
        rintro ⟨x, hx, hne⟩
        rw [hv] at hx; cases hx; exact hne c)
      rw [if_pos c]
      refine ⟨⟨hd, by simp, by simp, Or.inr hself, by simp⟩, by simp [Pc.weight], ?_⟩
      intro w hw
      rcases NotAt.set_other hw with hw | rfl
      · exact Or.inl hw
      · exact Or.inr ⟨rfl, _, rfl⟩
    · rw [if_neg c]
      refine ⟨hself, by simp [Pc.weight], ?_⟩
      intro w hw
      rcases NotAt.set_other hw with hw | rfl
      · exact Or.inl hw
      · exact Or.inl ⟨_, hv, c⟩

theorem task_step (hc : Ok inf g root) {ts : List Task} (hI : Inv ver inf g root l ts a) {i : Nat} {t : Task} (hi : ts[i]? = some t) (hf : ¬ t.finished) :
    ∃ a' t', taskStep ver inf (l + 1) a t = .ok (a', t') ∧ t'.pc.weight < t.pc.weight ∧ Inv ver inf g root l (ts.set i t') a' := by
  obtain ⟨hu, he, hat⟩ := hI.task t (List.mem_of_getElem? hi)
  unfold taskStep
  match hpc : t.pc with
  | .start =>
    obtain ⟨pc, h1, h2, h3⟩ := test_step hc hI.arr hu he
    simp only [h1, res_bind_ok]
    exact ⟨_, _, rfl, h3, hI.step hi (.refl _ _ _) hI.arr h2 (fun w hw => Or.inl hw) (fun as h => by rw [hpc] at h; cases h)⟩
  | .claim old =>
    rw [hpc] at hat
    obtain ⟨a', pc, h1, h2, h3, h4, h5, h6⟩ := claim_step hc hI.arr hu he hat
    simp only [h1, res_bind_ok]
    exact ⟨_, _, rfl, h5, hI.step hi h2 h3 h4 h6 (fun as h => by rw [hpc] at h; cases h)⟩
  | .todo [] => exact absurd (Or.inr hpc) hf
  | .todo (x :: xs) =>
    rw [hpc] at hat
    obtain ⟨a', h1, h2, h3, h4, h5⟩ := act_step hc hI.arr hu he hat
    simp only [h1, res_bind_ok]
    exact ⟨_, _, rfl, by simp [Pc.weight], hI.step hi h2 h3 h4 (fun w hw => (h5 w hw).imp_right fun h => ⟨h, _, rfl⟩) (fun as h => ⟨_, rfl⟩)⟩
  | .skip => exact absurd (Or.inl hpc) hf

/-- A round, whatever the order of the steps, ends with all tasks finished. -/
theorem round_phase (hc : Ok inf g root) {Q : List Nat → Prop}
    (hjoin : ∀ ts a, Inv ver inf g root l ts a → (∀ t ∈ ts, t.finished) → Sure (Step ver inf g) Q (.round ts a (l + 1))) :
    ∀ ts a, Inv ver inf g root l ts a → Sure (Step ver inf g) Q (.round ts a (l + 1)) := by
  intro ts
  generalize hm : (ts.map fun t => t.pc.weight).sum = m
  induction m using Nat.strongRecOn generalizing ts with
  | ind m ih =>
    intro a hI
    by_cases hall : ∀ t ∈ ts, t.finished
    · exact hjoin ts a hI hall
    · push Not at hall
      obtain ⟨t₀, ht₀, hf₀⟩ := hall
      obtain ⟨i₀, hi₀⟩ := List.getElem?_of_mem ht₀
      have hstep : ∀ o, Step ver inf g (.round ts a (l + 1)) o →
          ∃ ts' a', o = .ok (.inl (.round ts' a' (l + 1))) ∧ (ts'.map fun t => t.pc.weight).sum < m ∧ Inv ver inf g root l ts' a' := by
        intro o ho
        cases ho with
        | task hi hf =>
          obtain ⟨a', t', h1, h2, h3⟩ := task_step hc hI hi hf
          refine ⟨_, a', ?_, ?_, h3⟩
          · rw [h1]; rfl
          · rw [← hm]; exact sum_map_set_lt (fun t : Task => t.pc.weight) hi h2
        | join hf => exact absurd (hf t₀ ht₀) hf₀
      refine .mk ⟨_, .task hi₀ hf₀⟩ ?_ ?_ ?_
      · intro f hfl
        obtain ⟨_, _, h, _⟩ := hstep _ hfl
        cases h
      · intro r hr
        obtain ⟨_, _, h, _⟩ := hstep _ hr
        cases h
      · intro s' hs'
        obtain ⟨ts', a', h, hlt, hI'⟩ := hstep _ hs'
        cases h
        exact ih _ hlt ts' rfl a' hI'

/-- The state at the head of the loop after `l` levels. -/
structure Head (ver : Ver) (inf : Nat) (g : Rows α) (root l : Nat) (q1 : List (List Nat)) (mark par : List Nat) : Prop where
  lev : Lev (buArgs inf g g) root l par
  lenM : ver ≠ .topDown → mark.length = g.length
  lv : ver = .v7 → ∀ w x : Nat, mark[w]? = some x → x ≠ inf → x ≤ l
  marks : ∀ w, Marked ver inf { q2 := [], mark := mark, par := par } w ↔ Near g root l w
  queue : ∀ v, v ∈ q1.flatten ↔ IsDist g root v l

theorem marked_q2 (q : List (List Nat)) (w : Nat) : Marked ver inf { a with q2 := q } w ↔ Marked ver inf a w := by
  cases ver <;> exact Iff.rfl

/-- After a round the next level is complete and enqueued. -/
theorem Inv.joined {ts : List Task} (hI : Inv ver inf g root l ts a) (hf : ∀ t ∈ ts, t.finished) :
    Head ver inf g root (l + 1) a.q2 a.mark a.par := by
  have hdone : ∀ t ∈ ts, Marked ver inf a t.v := by
    intro t ht
    obtain ⟨-, -, hat⟩ := hI.task t ht
    rcases hf t ht with h | h <;> rw [h] at hat
    · exact hat
    · exact (hat.2.2.2.1).resolve_left (by simp)
  have hclaim : ∀ v, IsDist g root v (l + 1) → Marked ver inf a v ∧ v ∈ a.q2.flatten ∧ NotAt inf a.par v := by
    intro v hv
    obtain ⟨u, hu, he⟩ := hv.pred
    obtain ⟨t, ht, rfl, rfl⟩ := hI.cover u v hu he
    have hm := hdone t ht
    refine ⟨hm, ?_⟩
    rcases hI.claimant _ hm with h | ⟨s, hs, h1, as, h2⟩
    · exact absurd h hv.not_near
    · obtain ⟨-, -, hat⟩ := hI.task s hs
      rcases hf s hs with h | h
      · rw [h] at h2; cases h2
      · rw [h, h1] at hat
        exact ⟨(hat.2.1).resolve_left (by simp), (hat.2.2.1).resolve_left (by simp)⟩
  refine ⟨⟨hI.arr.pars.1, ?_⟩, hI.arr.lenM, hI.arr.lv, ?_, fun v => ⟨hI.arr.newq v, fun h => (hclaim v h).2.1⟩⟩
  · intro u pu hu
    obtain ⟨h1, h2⟩ := hI.arr.pars.2 u pu hu
    refine ⟨⟨fun h => (h2 h).1, ?_⟩, fun h => (h2 h).2⟩
    intro hn
    rcases near_succ.1 hn with hn | hn
    · exact h1 hn
    · obtain ⟨x, hx, hne⟩ := (hclaim u hn).2.2
      rw [hu] at hx; cases hx; exact hne
  · intro w
    rw [show Marked ver inf { q2 := [], mark := a.mark, par := a.par } w ↔ Marked ver inf a w from marked_q2 (a := a) [] w]
    refine ⟨hI.arr.marked w, fun h => ?_⟩
    rcases near_succ.1 h with h | h
    · exact hI.arr.near w h
    · exact (hclaim w h).1

end

/-- A usable argument, to use the lemmas on the direction-optimizing search. -/
theorem Lev.tree {inf : Nat} {g : Rows α} {root l : Nat} {par : List Nat} (hc : Ok inf g root) (h : Lev (buArgs inf g g) root l par)
    (hend : ¬ ∃ v, IsDist g root v (l + 1)) : par.length = g.length ∧ BfsTree g root (parentOf inf par) :=
  Lev.final' hc.inRange hc.rootLt h hend

end NW.BfsExp
