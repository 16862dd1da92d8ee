import Verif.Model.Base
/-!
# Model of `src/include/WrappedDouble.hpp`

The wrapper is modelled over an arbitrary number type `D`. `Dbl K` is such a type: exact numbers of `K` together with infinities and
NaN, and the rules of IEEE 754 for these. Rounding is not modelled here.
-/

namespace AHO

/-- The operations of `double` which the comparisons of the wrapper use, and `eps`
(`src/include/WrappedDouble.hpp:47`: `constexpr static double eps = 1e-4`). -/
class Tolerance (D : Type) where
  abs : D → D
  eps : D

/-- `class WrappedDouble` (`src/include/WrappedDouble.hpp:9-48`) -/
structure Wrapped (D : Type) where
  value : D

namespace Wrapped
variable {D : Type} [Tolerance D]
open Tolerance

/-- `operator==` (`src/include/WrappedDouble.hpp:27-30`) -/
def eq [Sub D] [LT D] [DecidableLT D] (a b : Wrapped D) : Bool := !decide (eps < abs (a.value - b.value))

/-- `operator<` (`src/include/WrappedDouble.hpp:31-32`) -/
def lt [Add D] [LT D] [DecidableLT D] (a b : Wrapped D) : Bool := decide (a.value + eps < b.value)

/-- `operator<=` (`src/include/WrappedDouble.hpp:33-34`) -/
def le [Sub D] [LE D] [DecidableLE D] (a b : Wrapped D) : Bool := decide (a.value - eps ≤ b.value)

/-- `operator>` (`src/include/WrappedDouble.hpp:35-36`) -/
def gt [Sub D] [LT D] [DecidableLT D] (a b : Wrapped D) : Bool := decide (b.value < a.value - eps)

/-- `operator>=` (`src/include/WrappedDouble.hpp:37-38`) -/
def ge [Add D] [LE D] [DecidableLE D] (a b : Wrapped D) : Bool := decide (b.value ≤ a.value + eps)

/-! The arithmetic operators and the constructor from `int` (`src/include/WrappedDouble.hpp:12-25`). -/

instance [Zero D] : Zero (Wrapped D) := ⟨⟨0⟩⟩
instance [One D] : One (Wrapped D) := ⟨⟨1⟩⟩
instance [IntCast D] : IntCast (Wrapped D) := ⟨fun n => ⟨n⟩⟩
instance [Neg D] : Neg (Wrapped D) := ⟨fun a => ⟨-a.value⟩⟩
instance [Add D] : Add (Wrapped D) := ⟨fun a b => ⟨a.value + b.value⟩⟩
instance [Sub D] : Sub (Wrapped D) := ⟨fun a b => ⟨a.value - b.value⟩⟩
instance [Mul D] : Mul (Wrapped D) := ⟨fun a b => ⟨a.value * b.value⟩⟩
instance [Div D] : Div (Wrapped D) := ⟨fun a b => ⟨a.value / b.value⟩⟩

/-! With these the solver can be run with `Data = WrappedDouble`. The models of the other files write `a > b` as `b < a`; over an
exact number type this is the same (`C30_le_ge`), and with rounding for the values of `C59_comparisons_exact`. -/

instance [Sub D] [LT D] [DecidableLT D] : BEq (Wrapped D) := ⟨eq⟩
instance [Add D] [LT D] [DecidableLT D] : LT (Wrapped D) := ⟨fun a b => lt a b = true⟩
instance [Sub D] [LE D] [DecidableLE D] : LE (Wrapped D) := ⟨fun a b => le a b = true⟩
instance [Add D] [LT D] [DecidableLT D] : DecidableLT (Wrapped D) := fun a b => inferInstanceAs (Decidable (lt a b = true))
instance [Sub D] [LE D] [DecidableLE D] : DecidableLE (Wrapped D) := fun a b => inferInstanceAs (Decidable (le a b = true))

end Wrapped

/-- Exact numbers with infinities and NaN. -/
inductive Dbl (K : Type)
  | fin (x : K)
  | pinf
  | ninf
  | nan
  deriving DecidableEq

namespace Dbl
variable {K : Type}

/-- IEEE 754 negation -/
def neg [Neg K] : Dbl K → Dbl K
  | fin x => fin (-x)
  | pinf => ninf
  | ninf => pinf
  | nan => nan

/-- IEEE 754 addition: `inf + -inf` is NaN -/
def add [Add K] : Dbl K → Dbl K → Dbl K
  | fin x, fin y => fin (x + y)
  | nan, _ => nan
  | _, nan => nan
  | pinf, ninf => nan
  | ninf, pinf => nan
  | pinf, _ => pinf
  | _, pinf => pinf
  | ninf, _ => ninf
  | _, ninf => ninf

/-- IEEE 754 `<`: false if an operand is NaN -/
def lt [LT K] : Dbl K → Dbl K → Prop
  | fin x, fin y => x < y
  | fin _, pinf => True
  | ninf, fin _ => True
  | ninf, pinf => True
  | _, _ => False

/-- IEEE 754 `<=`: false if an operand is NaN -/
def le [LE K] : Dbl K → Dbl K → Prop
  | fin x, fin y => x ≤ y
  | nan, _ => False
  | _, nan => False
  | ninf, _ => True
  | _, pinf => True
  | _, _ => False

/-- `std::abs` -/
def abs [Neg K] [Max K] : Dbl K → Dbl K
  | fin x => fin (max x (-x))
  | pinf => pinf
  | ninf => pinf
  | nan => nan

instance [Add K] : Add (Dbl K) := ⟨add⟩
instance [Add K] [Neg K] : Sub (Dbl K) := ⟨fun a b => add a (neg b)⟩
instance [LT K] : LT (Dbl K) := ⟨lt⟩
instance [LE K] : LE (Dbl K) := ⟨le⟩

instance [LT K] [DecidableLT K] : DecidableLT (Dbl K) := fun a b => by
  show Decidable (lt a b)
  cases a <;> cases b <;> unfold lt <;> infer_instance

instance [LE K] [DecidableLE K] : DecidableLE (Dbl K) := fun a b => by
  show Decidable (le a b)
  cases a <;> cases b <;> unfold le <;> infer_instance

end Dbl
end AHO
