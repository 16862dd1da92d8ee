import Verif.Model.Wrapped
import Mathlib.Data.Rat.Floor
import Mathlib.Algebra.Order.Field.Basic
/-!
# Binary floating-point arithmetic

`using Data = double` (`src/include/ProblemDefine.hpp:15`, `3rd/lct/LCT.hpp`). The operations of `double` as IEEE 754 defines them: the
exact result is rounded to the nearest number of the format, ties to even, and becomes infinite if it is too large. The sign of
a zero is not modelled; it could only be seen when dividing by zero, and the code divides by 2 only. The model takes every
operation to be rounded once (no fused operations, no extended precision).
-/

namespace AHO

/-- A binary floating-point format. -/
structure Format where
  /-- number of digits -/
  p : Nat
  /-- all numbers are multiples of `2 ^ emin` -/
  emin : Int
  /-- numbers from `2 ^ emax` on are infinite -/
  emax : Int

namespace Format

/-- `double` -/
def binary64 : Format := ⟨53, -1074, 1024⟩

/-- `float` -/
def binary32 : Format := ⟨24, -149, 128⟩

/-- `2 ^ e` -/
def pow2 (e : Int) : ℚ := (2 : ℚ) ^ e

/-- the exponent `e` with `2 ^ e ≤ |x| < 2 ^ (e + 1)`, for `x ≠ 0` -/
def expo (x : ℚ) : Int :=
  let e : Int := Nat.log2 x.num.natAbs - Nat.log2 x.den
  if pow2 e ≤ |x| then e else e - 1

/-- the nearest integer, ties to even -/
def nearest (q : ℚ) : Int :=
  let n := ⌊q⌋
  if q - n < 1 / 2 then n else if 1 / 2 < q - n then n + 1 else if n % 2 = 0 then n else n + 1

/-- exponent of the last digit of a number of the size of `x` -/
def lastDigit (f : Format) (x : ℚ) : Int := max (expo x - (f.p - 1)) f.emin

/-- the nearest number of the format, if there were no largest exponent -/
def round (f : Format) (x : ℚ) : ℚ :=
  if x = 0 then 0 else nearest (x / pow2 (f.lastDigit x)) * pow2 (f.lastDigit x)

/-- the result of an operation whose exact result is `x` -/
def result (f : Format) (x : ℚ) : Dbl ℚ :=
  let y := f.round x
  if pow2 f.emax ≤ y then .pinf else if y ≤ -pow2 f.emax then .ninf else .fin y

end Format

/-- The numbers of a format, with infinities and NaN. -/
structure Flt (f : Format) where
  val : Dbl ℚ

namespace Flt
variable {f : Format}

/-- round a finite value; other values are not changed -/
def rnd (f : Format) : Dbl ℚ → Flt f
  | .fin x => ⟨f.result x⟩
  | .pinf => ⟨.pinf⟩
  | .ninf => ⟨.ninf⟩
  | .nan => ⟨.nan⟩

/-- an infinity with the sign of `x`; NaN for `x = 0` -/
def infSign (x : ℚ) : Dbl ℚ := if 0 < x then .pinf else if x < 0 then .ninf else .nan

/-- IEEE 754 multiplication, before rounding -/
def mulD : Dbl ℚ → Dbl ℚ → Dbl ℚ
  | .fin x, .fin y => .fin (x * y)
  | .nan, _ => .nan
  | _, .nan => .nan
  | .fin x, .pinf => infSign x
  | .fin x, .ninf => infSign (-x)
  | .pinf, .fin y => infSign y
  | .ninf, .fin y => infSign (-y)
  | .pinf, .pinf => .pinf
  | .ninf, .ninf => .pinf
  | .pinf, .ninf => .ninf
  | .ninf, .pinf => .ninf

/-- IEEE 754 division, before rounding; zeros count as positive -/
def divD : Dbl ℚ → Dbl ℚ → Dbl ℚ
  | .fin x, .fin y => if y = 0 then infSign x else .fin (x / y)
  | .nan, _ => .nan
  | _, .nan => .nan
  | .fin _, .pinf => .fin 0
  | .fin _, .ninf => .fin 0
  | .pinf, .fin y => if y < 0 then .ninf else .pinf
  | .ninf, .fin y => if y < 0 then .pinf else .ninf
  | _, _ => .nan

/-- IEEE 754 `==`: false if an operand is NaN -/
def eqD : Dbl ℚ → Dbl ℚ → Bool
  | .fin x, .fin y => decide (x = y)
  | .pinf, .pinf => true
  | .ninf, .ninf => true
  | _, _ => false

/-- the literal of value `x` -/
def ofRat (f : Format) (x : ℚ) : Flt f := ⟨.fin x⟩

instance : Zero (Flt f) := ⟨ofRat f 0⟩
instance : One (Flt f) := ⟨ofRat f 1⟩
instance : IntCast (Flt f) := ⟨fun n => ⟨f.result n⟩⟩
instance : Neg (Flt f) := ⟨fun a => ⟨a.val.neg⟩⟩
instance : Add (Flt f) := ⟨fun a b => rnd f (a.val + b.val)⟩
instance : Sub (Flt f) := ⟨fun a b => rnd f (a.val - b.val)⟩
instance : Mul (Flt f) := ⟨fun a b => rnd f (mulD a.val b.val)⟩
instance : Div (Flt f) := ⟨fun a b => rnd f (divD a.val b.val)⟩
instance : BEq (Flt f) := ⟨fun a b => eqD a.val b.val⟩
instance : LT (Flt f) := ⟨fun a b => a.val < b.val⟩
instance : LE (Flt f) := ⟨fun a b => a.val ≤ b.val⟩
instance : DecidableLT (Flt f) := fun a b => inferInstanceAs (Decidable (a.val < b.val))
instance : DecidableLE (Flt f) := fun a b => inferInstanceAs (Decidable (a.val ≤ b.val))

/-- `std::abs` and `eps` of `WrappedDouble` (`src/include/WrappedDouble.hpp:29,47`): the number of the format nearest to `1e-4` -/
instance : Tolerance (Flt f) := ⟨fun a => ⟨a.val.abs⟩, ⟨f.result (1 / 10000)⟩⟩

end Flt
end AHO
