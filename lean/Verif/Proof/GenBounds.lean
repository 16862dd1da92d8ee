import Verif.Spec
import Mathlib.Algebra.Order.BigOperators.Group.Finset
import Mathlib.Algebra.Order.Field.Basic
import Mathlib.Tactic.Linarith
import Mathlib.Tactic.Ring
import Mathlib.Tactic.FieldSimp
import Mathlib.Tactic.NormNum
import Mathlib.Tactic.Positivity
import Mathlib.Tactic.GCongr
/-!
# The random problems meet the conditions on the input
-/

namespace AHO.Spec

section
variable {K : Type} [Field K] [LinearOrder K] [IsStrictOrderedRing K] {n mlimit : Int} {multi : Bool} {nl el fl : Int × Int}

theorem RandomCost.convex {F : Int → K} (h : RandomCost fl F) (l u : Int) : Convex F l u := by
  obtain ⟨a, b, c, ⟨ha, -⟩, -, -, hF⟩ := h
  intro x _ _
  rw [hF, hF, hF]
  have : (0 : K) ≤ a := by exact_mod_cast (show (0 : Int) ≤ a by omega)
  push_cast
  linarith

theorem RandomCost.quarter {F : Int → K} (h : RandomCost fl F) (x : Int) : ∃ k : Int, F x = k * (2 : K) ^ (-2 : Int) := by
  obtain ⟨a, b, c, -, -, -, hF⟩ := h
  refine ⟨a * x ^ 2 + b * x + c, ?_⟩
  rw [hF]
  push_cast
  rw [show (2 : K) ^ (-2 : Int) = 1 / 4 by rw [zpow_neg]; norm_num [zpow_ofNat]]
  ring

theorem RandomCost.bound {F : Int → K} (h : RandomCost fl F) {A : Nat} (h1 : -(A : Int) ≤ fl.1) (h2 : fl.2 ≤ A) {X : Nat} {x : Int} (hx : |x| ≤ X) :
    |F x| ≤ (A * (X ^ 2 + X + 1) : Nat) := by
  obtain ⟨a, b, c, ⟨ha, ha'⟩, ⟨hb, hb'⟩, ⟨hc, hc'⟩, hF⟩ := h
  have a1 : |a| ≤ 4 * A := by rw [abs_le]; omega
  have b1 : |b| ≤ 4 * A := by rw [abs_le]; omega
  have c1 : |c| ≤ 4 * A := by rw [abs_le]; omega
  have key : |a * x ^ 2 + b * x + c| ≤ 4 * (A * (X ^ 2 + X + 1) : Nat) := by
    have e1 : |a * x ^ 2| ≤ 4 * A * X ^ 2 := by
      rw [abs_mul, abs_pow]
      exact mul_le_mul a1 (pow_le_pow_left₀ (abs_nonneg _) hx 2) (by positivity) (by positivity)
    have e2 : |b * x| ≤ 4 * A * X := by
      rw [abs_mul]
      exact mul_le_mul b1 hx (by positivity) (by positivity)
    have := abs_add_le (a * x ^ 2 + b * x) c
    have := abs_add_le (a * x ^ 2) (b * x)
    push_cast
    linarith
  rw [hF, abs_div, abs_of_pos (by norm_num : (0 : K) < 4), div_le_iff₀ (by norm_num)]
  have : ((|a * x ^ 2 + b * x + c| : Int) : K) ≤ ((4 * (A * (X ^ 2 + X + 1) : Nat) : Int) : K) := by exact_mod_cast key
  push_cast at this ⊢
  linarith

/-- numbers for the limits -/
structure Numbers (nl el fl : Int × Int) (X A W : Nat) : Prop where
  n1 : -(X : Int) ≤ nl.1
  n2 : nl.2 ≤ X
  e1 : -(X : Int) ≤ el.1
  e2 : el.2 ≤ X
  f1 : -(A : Int) ≤ fl.1
  f2 : fl.2 ≤ A
  wn : nl.2 - nl.1 ≤ W
  we : el.2 - (nl.1 - nl.2) ≤ W
  XW : X ≤ W

namespace RandomProblem
variable {P : Problem K} (h : RandomProblem n mlimit multi nl el fl P) {X A W : Nat} (N : Numbers nl el fl X A W)
include h

omit [LinearOrder K] [IsStrictOrderedRing K] in
theorem wellFormed : WellFormed P := ⟨h.le, h.i_pos, h.i_le, h.j_pos, h.j_le, h.ne, h.lu⟩

theorem convexCosts : ConvexCosts P := ⟨fun i h1 h2 => (h.F i h1 h2).convex _ _, fun p hp => (h.B p hp).convex _ _⟩

include N

omit [LinearOrder K] [IsStrictOrderedRing K] in
theorem within : Within P W := by
  obtain ⟨n1, n2, e1, e2, f1, f2, wn, we, XW⟩ := N
  refine ⟨fun i h1 h2 => ?_, fun i h1 h2 => ?_, fun p hp => ?_, fun p hp => ?_⟩
  · have := h.lo i h1 h2; omega
  · have := h.hi i h1 h2; omega
  · have := h.u p hp; omega
  · have := h.lo _ (h.i_pos p hp) (h.i_le p hp)
    have := h.hi _ (h.j_pos p hp) (h.j_le p hp)
    omega

omit [LinearOrder K] [IsStrictOrderedRing K] in
theorem widths : Widths P W := by
  obtain ⟨n1, n2, e1, e2, f1, f2, wn, we, XW⟩ := N
  refine ⟨fun i h1 h2 => ?_, fun p hp => ?_⟩
  · have := h.lo i h1 h2; have := h.hi i h1 h2; omega
  · have := h.lo _ (h.i_pos p hp) (h.i_le p hp)
    have := h.hi _ (h.j_pos p hp) (h.j_le p hp)
    have := h.u p hp
    omega

omit [LinearOrder K] [IsStrictOrderedRing K] in
theorem representable {imax : Int} (hi : 2 * X ≤ imax) : Representable imax P := by
  obtain ⟨n1, n2, e1, e2, f1, f2, wn, we, XW⟩ := N
  refine ⟨fun p hp => ?_, fun p hp => ?_⟩
  · have := h.l p hp; omega
  · have := h.l p hp; have := h.u p hp; omega

omit [LinearOrder K] [IsStrictOrderedRing K] in
theorem capacity {imax : Int} (hi : 2 * X ≤ imax) (hc : ((6 * (P.n + 1) * bitCeil ((P.n + 1) * W) : Nat) : Int) ≤ imax) : Capacity imax P :=
  ⟨h.representable N hi, W, h.within N, h.widths N, hc⟩

theorem allCosts : P.AllCosts fun v => (∃ k : Int, v = k * (2 : K) ^ (-2 : Int)) ∧ |v| ≤ (A * (X ^ 2 + X + 1) : Nat) := by
  refine ⟨fun i h1 h2 x x1 x2 => ⟨(h.F i h1 h2).quarter x, (h.F i h1 h2).bound N.f1 N.f2 ?_⟩, fun p hp x x1 x2 => ⟨(h.B p hp).quarter x, (h.B p hp).bound N.f1 N.f2 ?_⟩⟩
  · have := h.lo i h1 h2; have := h.hi i h1 h2; have := N.n1; have := N.n2
    rw [abs_le]; omega
  · have := h.l p hp; have := h.u p hp; have := N.e1; have := N.e2
    rw [abs_le]; omega

theorem cost_le {μ ω : Nat → Int} (hr : InRanges P μ ω) : |cost P μ ω| ≤ ((P.pairs.length + P.n) * (A * (X ^ 2 + X + 1)) : Nat) := by
  have hA := h.allCosts N
  unfold cost
  refine (abs_add_le _ _).trans ?_
  have e1 : |∑ i ∈ Finset.Icc 1 P.n, P.F i (μ i)| ≤ (P.n * (A * (X ^ 2 + X + 1)) : Nat) := by
    refine (Finset.abs_sum_le_sum_abs _ _).trans ?_
    refine (Finset.sum_le_card_nsmul _ _ ((A * (X ^ 2 + X + 1) : Nat) : K) fun i hi => ?_).trans ?_
    · obtain ⟨i1, i2⟩ := Finset.mem_Icc.1 hi
      exact (hA.nodes i i1 i2 _ (hr.1 i i1 i2).1 (hr.1 i i1 i2).2).2
    · rw [Nat.card_Icc, nsmul_eq_mul, Nat.add_sub_cancel, ← Nat.cast_mul]
  have e2 : |∑ k : Fin P.pairs.length, P.pairs[k].B (ω k)| ≤ (P.pairs.length * (A * (X ^ 2 + X + 1)) : Nat) := by
    refine (Finset.abs_sum_le_sum_abs _ _).trans ?_
    refine (Finset.sum_le_card_nsmul _ _ ((A * (X ^ 2 + X + 1) : Nat) : K) fun k _ => ?_).trans ?_
    · exact (hA.pairs _ (List.getElem_mem _) _ (hr.2 k k.2).1 (hr.2 k k.2).2).2
    · rw [Finset.card_univ, Fintype.card_fin, nsmul_eq_mul, ← Nat.cast_mul]
  rw [Nat.add_mul, Nat.cast_add, add_comm ((_ : Nat) : K)]
  exact add_le_add e1 e2

theorem spread {S : Nat} (hS : 2 * ((P.pairs.length + P.n) * (A * (X ^ 2 + X + 1))) < S) : Spread P (S : K) := by
  intro μ ω μ' ω' hr hr'
  have h1 := (abs_le.1 (h.cost_le N hr)).2
  have h2 := (abs_le.1 (h.cost_le N hr')).1
  have : ((2 * ((P.pairs.length + P.n) * (A * (X ^ 2 + X + 1))) : Nat) : K) < S := by exact_mod_cast hS
  rw [Nat.cast_mul, Nat.cast_two] at this
  linarith

end RandomProblem
end
end AHO.Spec
