import Verif.Link
import Mathlib.Algebra.Order.Ring.Rat
import Mathlib.Tactic.Linarith
import Mathlib.Tactic.NormNum
import Mathlib.Tactic.IntervalCases
/-!
# A concrete instance

Two nodes with quadratic costs, two pair limits in opposite directions. It is used beside the theorems to
show that their hypotheses can be met.
-/

namespace AHO.Props
open Spec

/-- minimise `(μ₁ - 1)² + (μ₂ - 2)² + 2 ω₁ + 3 ω₂²` -/
def exP : Problem ℚ where
  n := 2
  lo i := if i = 1 then -2 else 0
  hi i := if i = 1 then 3 else 4
  F i x := ((x : ℚ) - i) ^ 2
  pairs := [⟨1, 2, -4, -2, fun x => 2 * (x : ℚ)⟩, ⟨2, 1, 0, 5, fun x => 3 * (x : ℚ) ^ 2⟩]

/-- `Mus`; entry `0` is junk, and the callbacks refuse arguments outside their ranges -/
def exMus : List (MuLimit ℚ) :=
  [⟨7, 3, fun _ => .error .callback⟩,
   ⟨-2, 3, fun x => if -2 ≤ x ∧ x ≤ 3 then .ok (((x : ℚ) - 1) ^ 2) else .error .callback⟩,
   ⟨0, 4, fun x => if 0 ≤ x ∧ x ≤ 4 then .ok (((x : ℚ) - 2) ^ 2) else .error .callback⟩]

/-- `Omegas`; the callbacks refuse arguments outside their ranges -/
def exOmegas : List (OmegaLimit ℚ) :=
  [⟨⟨-4, -2, fun x => if -4 ≤ x ∧ x ≤ -2 then .ok (2 * (x : ℚ)) else .error .callback⟩, 1, 2⟩,
   ⟨⟨0, 5, fun x => if 0 ≤ x ∧ x ≤ 5 then .ok (3 * (x : ℚ) ^ 2) else .error .callback⟩, 2, 1⟩]

theorem ex_rep : Represents exP exMus exOmegas := by
  refine ⟨rfl, ?_, ?_⟩
  · intro i h h1
    have h3 : i < 3 := h
    interval_cases i
    · refine ⟨rfl, rfl, fun x a b => ?_⟩
      have a' : -2 ≤ x := a
      have b' : x ≤ 3 := b
      simp [exMus, exP, a', b']
    · refine ⟨rfl, rfl, fun x a b => ?_⟩
      have a' : 0 ≤ x := a
      have b' : x ≤ 4 := b
      simp [exMus, exP, a', b']
  · refine .cons ⟨rfl, rfl, rfl, rfl, fun x a b => ?_⟩ (.cons ⟨rfl, rfl, rfl, rfl, fun x a b => ?_⟩ .nil)
    · have a' : -4 ≤ x := a
      have b' : x ≤ -2 := b
      simp [a', b']
    · have a' : 0 ≤ x := a
      have b' : x ≤ 5 := b
      simp [a', b']

theorem ex_wf : WellFormed exP := by
  constructor <;> simp [exP]
  intro i h1 h2
  interval_cases i <;> simp

theorem ex_cv : ConvexCosts exP := by
  constructor
  · intro i _ _ x _ _
    simp only [exP]
    push_cast
    nlinarith
  · intro p hp x _ _
    simp only [exP, List.mem_cons, List.not_mem_nil, or_false] at hp
    rcases hp with rfl | rfl
    · push_cast; linarith
    · push_cast; nlinarith

theorem ex_within : Within exP 6 := by
  constructor
  · intro i h1 h2
    have h3 : i ≤ 2 := h2
    interval_cases i <;> simp [exP]
  · intro i h1 h2
    have h3 : i ≤ 2 := h2
    interval_cases i <;> simp [exP]
  · simp [exP]
  · simp [exP]

theorem ex_widths : Widths exP 8 := by
  constructor
  · intro i h1 h2
    have h3 : i ≤ 2 := h2
    interval_cases i <;> simp [exP]
  · simp [exP]

theorem ex_bitCeil : bitCeil ((exP.n + 1) * 8) = 32 := by
  have : Nat.clog 2 24 = 5 := by
    decide +kernel
  show 2 ^ Nat.clog 2 24 = 32
  rw [this]; norm_num

theorem ex_representable : Representable (2 ^ 31 - 1) exP := by
  constructor <;> simp [exP]

theorem ex_capacity : Capacity (2 ^ 31 - 1) exP := by
  refine ⟨ex_representable, 8, ?_, ex_widths, ?_⟩
  · have := ex_within
    refine ⟨fun i h1 h2 => ?_, fun i h1 h2 => ?_, fun p hp => ?_, fun p hp => ?_⟩
    · have := this.lo i h1 h2; push_cast; omega
    · have := this.hi i h1 h2; push_cast; omega
    · have := this.u p hp; push_cast; omega
    · have := this.diff p hp; push_cast; omega
  · rw [ex_bitCeil]; simp [exP]

theorem ex_n : exP.n + 1 < 2 ^ 64 := by simp [exP]

end AHO.Props
