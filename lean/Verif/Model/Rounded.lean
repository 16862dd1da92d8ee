import Mathlib.Algebra.Order.Field.Basic
/-!
# Rounded arithmetic

`using Data = double` (`src/include/ProblemDefine.hpp:15`), and `double` in `test/CostScaling.cpp`, `test/SimpleSolver.cpp`, without its largest number:
every operation is exact, and then its result is rounded. How it is rounded is a parameter. Infinities and NaN do not occur.
-/

namespace AHO

/-- A rounding: monotone, and numbers which are results of rounding, as well as their negatives, are not changed. -/
structure Rounding (K : Type) [Neg K] [Zero K] [LE K] where
  rnd : K → K
  mono : ∀ x y, x ≤ y → rnd x ≤ rnd y
  idem : ∀ x, rnd (rnd x) = rnd x
  zero : rnd 0 = 0
  neg : ∀ x, rnd (-rnd x) = -rnd x

/-- The numbers which rounding does not change. -/
structure Rd {K : Type} [Neg K] [Zero K] [LE K] (ρ : Rounding K) where
  val : K
  fix : ρ.rnd val = val

namespace Rd
variable {K : Type} [Field K] [LinearOrder K] {ρ : Rounding K}

theorem ext {a b : Rd ρ} (h : a.val = b.val) : a = b := by
  cases a; cases b; cases h; rfl

/-- round a number -/
def of (ρ : Rounding K) (x : K) : Rd ρ := ⟨ρ.rnd x, ρ.idem x⟩

instance : Zero (Rd ρ) := ⟨⟨0, ρ.zero⟩⟩
instance : One (Rd ρ) := ⟨of ρ 1⟩
instance : Add (Rd ρ) := ⟨fun a b => of ρ (a.val + b.val)⟩
instance : Sub (Rd ρ) := ⟨fun a b => of ρ (a.val - b.val)⟩
instance : Neg (Rd ρ) := ⟨fun a => ⟨-a.val, by rw [← a.fix]; exact ρ.neg a.val⟩⟩
instance : Mul (Rd ρ) := ⟨fun a b => of ρ (a.val * b.val)⟩
instance : Div (Rd ρ) := ⟨fun a b => of ρ (a.val / b.val)⟩
instance : IntCast (Rd ρ) := ⟨fun k => of ρ k⟩
instance : LinearOrder (Rd ρ) := LinearOrder.lift' Rd.val fun _ _ h => ext h
instance : BEq (Rd ρ) := ⟨fun a b => decide (a.val = b.val)⟩
instance : LawfulBEq (Rd ρ) where
  eq_of_beq h := ext (of_decide_eq_true h)
  rfl := by intro a; exact decide_eq_true rfl

end Rd
end AHO
