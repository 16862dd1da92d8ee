import Mathlib.Data.Int.Notation
/-!
# Signed integers as `Data`

`using Data = double` (`src/include/ProblemDefine.hpp:9-10,15`, `3rd/lct/LCT.hpp:9`) is meant to be changed by the user, in both places. Here `Data` is
a signed integer type at least as wide as `int`, for instance `long long`.
-/

namespace AHO

/-- A signed integer type with the values `-b - 1, …, b`. An operation whose exact result `x` is not a value of the type overflows; the
behaviour is then undefined, and here the result is `ov x`, where `ov` can be any function. -/
structure SInt (b : Int) (ov : Int → Int) where
  val : Int
deriving DecidableEq

namespace SInt
variable {b : Int} {ov : Int → Int}

/-- the result of an operation whose exact result is `x` -/
def res (b : Int) (ov : Int → Int) (x : Int) : SInt b ov := ⟨if -b - 1 ≤ x ∧ x ≤ b then x else ov x⟩

/-- the literal of value `x` -/
def of (b : Int) (ov : Int → Int) (x : Int) : SInt b ov := ⟨x⟩

instance : Zero (SInt b ov) := ⟨of b ov 0⟩
instance : One (SInt b ov) := ⟨of b ov 1⟩
instance : IntCast (SInt b ov) := ⟨res b ov⟩
instance : Neg (SInt b ov) := ⟨fun x => res b ov (-x.val)⟩
instance : Add (SInt b ov) := ⟨fun x y => res b ov (x.val + y.val)⟩
instance : Sub (SInt b ov) := ⟨fun x y => res b ov (x.val - y.val)⟩
instance : Mul (SInt b ov) := ⟨fun x y => res b ov (x.val * y.val)⟩
/-- rounds towards zero; the code divides by 2 only (`src/Flow.cpp:44`) -/
instance : Div (SInt b ov) := ⟨fun x y => res b ov (x.val.tdiv y.val)⟩
instance : BEq (SInt b ov) := ⟨fun x y => decide (x.val = y.val)⟩
instance : LT (SInt b ov) := ⟨fun x y => x.val < y.val⟩
instance : LE (SInt b ov) := ⟨fun x y => x.val ≤ y.val⟩
instance : DecidableLT (SInt b ov) := fun x y => inferInstanceAs (Decidable (x.val < y.val))
instance : DecidableLE (SInt b ov) := fun x y => inferInstanceAs (Decidable (x.val ≤ y.val))

/-- what most machines do: the result is reduced modulo `2 (b + 1)` -/
def wrapAround (b : Int) (x : Int) : Int := (x + (b + 1)) % (2 * (b + 1)) - (b + 1)

end SInt
end AHO
