import Verif.Model.Double
import Mathlib.Data.Int.Log
/-!
# Model of the output of `WrappedDouble`

`std::to_string(double)` is `printf` with the format `%f`, and `out << double` on a stream with the default settings is `printf` with
`%g` (precision 6). Both convert the exact value of the number; of two nearest decimals the one with the even last digit is taken
(rounding mode "to nearest", as in glibc). Simplification: zero has no sign here, so the text of `-0.0` is that of `0.0`; neither has NaN.
-/

namespace AHO
namespace Print

/-- `n` with `d` digits at least, for `n < 10 ^ d` -/
def padded (d n : Nat) : List Char := (toString (10 ^ d + n)).toList.drop 1

/-- the sign -/
def sign (x : ℚ) : List Char := if x < 0 then ['-'] else []

/-- `%f`: six digits after the point -/
def fixed (x : ℚ) : List Char :=
  let n := (Format.nearest (|x| * 10 ^ 6)).toNat
  sign x ++ ((toString (n / 10 ^ 6)).toList ++ '.' :: padded 6 (n % 10 ^ 6))

/-- zeros at the end, and then a point at the end, are removed -/
def strip (s : List Char) : List Char :=
  let r := s.reverse.dropWhile (· == '0')
  (match r with | '.' :: r => r | r => r).reverse

/-- `%g`: six significant digits. For `x ≠ 0`, `m * 10 ^ (e - 5)` is nearest to `|x|`, with six digits `m`. -/
def general (x : ℚ) : List Char :=
  if x = 0 then ['0'] else
  let e₀ := Int.log 10 |x|
  let m₀ := (Format.nearest (|x| / (10 : ℚ) ^ (e₀ - 5))).toNat
  let (m, e) := if m₀ = 10 ^ 6 then (10 ^ 5, e₀ + 1) else (m₀, e₀)
  let digits := (toString m).toList
  sign x ++
    if e < -4 ∨ 6 ≤ e then
      strip (digits.take 1 ++ '.' :: digits.drop 1) ++ 'e' :: (if e < 0 then '-' else '+') ::
        (if e.natAbs < 10 then padded 2 e.natAbs else (toString e.natAbs).toList)
    else if e < 0 then strip ('0' :: '.' :: (List.replicate (e.natAbs - 1) '0' ++ digits))
    else strip (digits.take (e.toNat + 1) ++ '.' :: digits.drop (e.toNat + 1))

/-- infinities and NaN -/
def text (fin : ℚ → List Char) : Dbl ℚ → List Char
  | .fin x => fin x
  | .pinf => "inf".toList
  | .ninf => "-inf".toList
  | .nan => "nan".toList

end Print

namespace Wrapped
variable {f : Format}

/-- `prettyPrint` (`src/include/WrappedDouble.hpp:42-43`): what `out` is afterwards -/
def prettyPrint (a : Wrapped (Flt f)) : String := .ofList (Print.text Print.fixed a.value.val)

/-- `operator<<` (`src/include/WrappedDouble.hpp:40-41`): what is written to a stream with the default settings -/
def output (a : Wrapped (Flt f)) : String := .ofList (Print.text Print.general a.value.val)

end Wrapped
end AHO
