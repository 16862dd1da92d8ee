import Verif.Model.Solver
import Verif.Proof.FlowEmb
/-!
# Limits over an inexact type

`LR E b x y`: the limit `y` over `R` stands for `x` over `K`; the values of the callback are exact and at
most `b` in absolute value. The functions of `ProblemDefine.cpp` and the first part of `ProblemSolver`
keep this relation.
-/

namespace AHO
open Spec
set_option linter.unusedSectionVars false

/-! ### `partition_point` -/

theorem partitionPoint_congr {imax : Int} {pred pred' : Int → Res Bool} : ∀ (fuel : Nat) (l r : Int), l ≤ r →
    (∀ x, l ≤ x → x < r → pred' x = pred x) → partitionPoint imax pred' fuel l r = partitionPoint imax pred fuel l r := by
  intro fuel
  induction fuel with
  | zero => intro l r _ _; rfl
  | succ fuel ih =>
    intro l r hlr hp
    unfold partitionPoint
    by_cases h : l = r
    · subst h; simp
    · rw [if_pos h, if_pos h]
      have hdiv : (r - l).tdiv 2 = (r - l) / 2 := Int.tdiv_eq_ediv_of_nonneg (by omega)
      unfold ck
      split
      · rw [ok_bind, ok_bind, hdiv]
        split
        · rw [ok_bind, ok_bind, hp _ (by omega) (by omega)]
          congr 1
          funext b
          cases b with
          | true =>
            simp only [if_true]
            split
            · rw [ok_bind, ok_bind]
              exact ih _ _ (by omega) fun x h1 h2 => hp x (by omega) h2
            · rfl
          | false =>
            simp only [if_false, Bool.false_eq_true]
            exact ih _ _ (by omega) fun x h1 h2 => hp x h1 (by omega)
        · rfl
      · rfl

theorem partitionPoint_range {imax : Int} {pred : Int → Res Bool} : ∀ (fuel : Nat) (l r p : Int), l ≤ r →
    partitionPoint imax pred fuel l r = .ok p → l ≤ p ∧ p ≤ r := by
  intro fuel
  induction fuel with
  | zero => intro l r p _ h; cases h
  | succ fuel ih =>
    intro l r p hlr hp
    unfold partitionPoint at hp
    by_cases h : l = r
    · subst h; simp at hp; omega
    · rw [if_pos h] at hp
      have hdiv : (r - l).tdiv 2 = (r - l) / 2 := Int.tdiv_eq_ediv_of_nonneg (by omega)
      unfold ck at hp
      split at hp
      · rw [ok_bind, hdiv] at hp
        split at hp
        · rw [ok_bind] at hp
          cases hb : pred (l + (r - l) / 2) with
          | error e => rw [hb] at hp; cases hp
          | ok b =>
            rw [hb, ok_bind] at hp
            cases b with
            | true =>
              simp only [if_true] at hp
              split at hp
              · rw [ok_bind] at hp
                have := ih _ _ _ (by omega) hp
                omega
              · cases hp
            | false =>
              simp only [if_false, Bool.false_eq_true] at hp
              have := ih _ _ _ (by omega) hp
              omega
        · cases hp
      · cases hp

variable {K : Type} [Field K] [LinearOrder K] [IsStrictOrderedRing K]
variable {R : Type} [Zero R] [One R] [Add R] [Sub R] [Neg R] [Mul R] [Div R] [IntCast R] [BEq R] [LT R] [LE R]
  [DecidableLT R] [DecidableLE R] {E : FEmb K R}

/-- `y` stands for `x`, with values at most `b` -/
structure LR (E : FEmb K R) (b : K) (x : OmegaLimit K) (y : OmegaLimit R) : Prop where
  l : y.l = x.l
  u : y.u = x.u
  i : y.i = x.i
  j : y.j = x.j
  fn : ∀ w, x.l ≤ w → w ≤ x.u → ∃ v, x.fn w = .ok v ∧ y.fn w = .ok (E.e v) ∧ v ∈ E.U ∧ |v| ≤ b
  ex : ∀ w v, x.l ≤ w → w ≤ x.u → x.fn w = .ok v → E.I v

/-- it is enough that all values of this size are exact -/
theorem LR.of {b : K} {x : OmegaLimit K} {y : OmegaLimit R} (hl : y.l = x.l) (hu : y.u = x.u) (hi : y.i = x.i) (hj : y.j = x.j)
    (hI : ∀ v ∈ E.U, |v| ≤ b → E.I v)
    (fn : ∀ w, x.l ≤ w → w ≤ x.u → ∃ v, x.fn w = .ok v ∧ y.fn w = .ok (E.e v) ∧ v ∈ E.U ∧ |v| ≤ b) : LR E b x y :=
  ⟨hl, hu, hi, hj, fn, fun w v h1 h2 hv => by
    obtain ⟨v', p, -, q, r⟩ := fn w h1 h2
    rw [hv] at p
    cases p
    exact hI v q r⟩

theorem LR.mono {b b' : K} {x : OmegaLimit K} {y : OmegaLimit R} (h : LR E b x y) (hb : b ≤ b') : LR E b' x y :=
  ⟨h.l, h.u, h.i, h.j, fun w h1 h2 => by
    obtain ⟨v, p, q, r, s⟩ := h.fn w h1 h2
    exact ⟨v, p, q, r, s.trans hb⟩, h.ex⟩

theorem LR.nonneg {b : K} {x : OmegaLimit K} {y : OmegaLimit R} (h : LR E b x y) (hle : x.l ≤ x.u) : 0 ≤ b := by
  obtain ⟨v, -, -, -, s⟩ := h.fn x.l le_rfl hle
  exact (abs_nonneg v).trans s

namespace LR
variable {b : K} {x : OmegaLimit K} {y : OmegaLimit R} (h : LR E b x y) {imax : Int} {fuel : Nat}
include h

theorem descends {w : Int} (h1 : x.l ≤ w) (h2 : w < x.u) :
    AHO.descends imax y.fn w = AHO.descends imax x.fn w := by
  obtain ⟨v, p, q, -⟩ := h.fn w h1 h2.le
  obtain ⟨v', p', q', -⟩ := h.fn (w + 1) (by omega) (by omega)
  unfold AHO.descends
  rw [p, q, ok_bind, ok_bind]
  unfold ck
  split
  · rw [ok_bind, ok_bind, p', q', ok_bind, ok_bind]
    congr 1
    exact decide_eq_decide.2 (E.lt _ _ (h.ex _ _ (by omega) (by omega) p') (h.ex _ _ h1 h2.le p))
  · rfl

theorem point (hle : x.l ≤ x.u) :
    partitionPoint imax (AHO.descends imax y.fn) fuel y.l y.u = partitionPoint imax (AHO.descends imax x.fn) fuel x.l x.u := by
  rw [h.l, h.u]
  exact partitionPoint_congr _ _ _ hle fun w h1 h2 => h.descends h1 h2

theorem minimum (hle : x.l ≤ x.u) {m : K} (hm : x.minimum imax fuel = .ok m) :
    y.minimum imax fuel = .ok (E.e m) ∧ m ∈ E.U ∧ |m| ≤ b := by
  unfold OmegaLimit.minimum at hm ⊢
  rw [h.point hle]
  cases hp : partitionPoint imax (AHO.descends imax x.fn) fuel x.l x.u with
  | error e => rw [hp] at hm; cases hm
  | ok p =>
    rw [hp, ok_bind] at hm
    obtain ⟨r1, r2⟩ := partitionPoint_range _ _ _ _ hle hp
    obtain ⟨v, p, q, r, s⟩ := h.fn p r1 r2
    rw [p] at hm
    cases hm
    rw [ok_bind]
    exact ⟨q, r, s⟩

theorem preProcessing (hle : x.l ≤ x.u) {x' : OmegaLimit K} (hx : x.preProcessing imax fuel = .ok x') :
    ∃ y', y.preProcessing imax fuel = .ok y' ∧ ∀ l', LR E b { x' with l := l' } { y' with l := l' } := by
  unfold OmegaLimit.preProcessing at hx ⊢
  rw [h.point hle]
  cases hp : partitionPoint imax (AHO.descends imax x.fn) fuel x.l x.u with
  | error e => rw [hp] at hx; cases hx
  | ok p =>
    rw [hp, ok_bind] at hx
    cases hx
    obtain ⟨r1, r2⟩ := partitionPoint_range _ _ _ _ hle hp
    rw [ok_bind]
    refine ⟨_, rfl, fun l' => ⟨rfl, h.u, h.i, h.j, fun w h1 h2 => ?_, fun w v h1 h2 hv => ?_⟩⟩
    · have h2 : w ≤ x.u := h2
      exact h.fn (max p w) (by omega) (by omega)
    · have h2 : w ≤ x.u := h2
      exact h.ex (max p w) v (by omega) (by omega) hv

theorem reverse (hu : x.u ≤ imax) {x' : OmegaLimit K} (hx : x.reverse imax = .ok x') :
    ∃ y', y.reverse imax = .ok y' ∧ LR E b x' y' := by
  unfold OmegaLimit.reverse at hx ⊢
  rw [h.l, h.u]
  unfold ck at hx ⊢
  by_cases c1 : -imax - 1 ≤ -x.u ∧ -x.u ≤ imax
  · by_cases c2 : -imax - 1 ≤ -x.l ∧ -x.l ≤ imax
    · rw [if_pos c1, ok_bind, if_pos c2, ok_bind] at hx
      cases hx
      rw [if_pos c1, ok_bind, if_pos c2, ok_bind]
      refine ⟨_, rfl, rfl, rfl, h.j, h.i, fun w h1 h2 => ?_, fun w v h1 h2 hv => ?_⟩
      · have h1 : -x.u ≤ w := h1
        have h2 : w ≤ -x.l := h2
        obtain ⟨v, p, q, r, s⟩ := h.fn (-w) (by omega) (by omega)
        refine ⟨v, ?_, ?_, r, s⟩
        · dsimp only; rw [if_pos (by omega), ok_bind, p]
        · dsimp only; rw [if_pos (by omega), ok_bind, q]
      · have h1 : -x.u ≤ w := h1
        have h2 : w ≤ -x.l := h2
        dsimp only at hv
        rw [if_pos (by omega), ok_bind] at hv
        exact h.ex (-w) v (by omega) (by omega) hv
    · rw [if_pos c1, ok_bind, if_neg c2] at hx; cases hx
  · rw [if_neg c1] at hx; cases hx

theorem merge {b2 : K} {x2 : OmegaLimit K} {y2 : OmegaLimit R} (h2 : LR E b2 x2 y2)
    (hI : ∀ v ∈ E.U, |v| ≤ b + b2 → E.I v) {r : OmegaLimit K × Bool} (hr : x.merge x2 = .ok r) :
    ∃ y', y.merge y2 = .ok (y', r.2) ∧ LR E (b + b2) r.1 y' ∧ (r.2 = false → r.1.l ≤ r.1.u) := by
  unfold OmegaLimit.merge at hr ⊢
  dsimp only at hr ⊢
  rw [h.l, h.u, h.i, h.j, h2.l, h2.u, h2.i, h2.j]
  by_cases c : x.i = x2.i ∧ x.j = x2.j
  · rw [if_pos c] at hr ⊢
    cases hr
    refine ⟨_, rfl, LR.of rfl rfl rfl rfl hI fun w w1 w2 => ?_, fun hh => by simpa using hh⟩
    have w1 : max x.l x2.l ≤ w := w1
    have w2 : w ≤ min x.u x2.u := w2
    obtain ⟨v, p, q, r, s⟩ := h.fn w (by omega) (by omega)
    obtain ⟨v', p', q', r', s'⟩ := h2.fn w (by omega) (by omega)
    have hb : |v + v'| ≤ b + b2 := (abs_add_le _ _).trans (add_le_add s s')
    refine ⟨v + v', ?_, ?_, E.U.add_mem r r', hb⟩
    · dsimp only; rw [p, ok_bind, p', ok_bind]
    · dsimp only; rw [q, ok_bind, q', ok_bind, E.plus _ _ r (hI _ (E.U.add_mem r r') hb)]
  · rw [if_neg c] at hr; cases hr

end LR
end AHO
