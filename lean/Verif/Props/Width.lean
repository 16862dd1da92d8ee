import Verif.Proof.Width
import Verif.Props.Example
/-!
# The width of `int`
-/

namespace AHO.Props
open Spec

/-- C39. If an execution with an `int` of maximal value `imax` does not overflow, it ends in the same way with every wider `int`. This
holds for every type `Data` and for all inputs, also malformed ones. -/
theorem C39_wider_int {D : Type} [Zero D] [One D] [Add D] [Sub D] [Neg D] [Mul D] [Div D] [IntCast D]
    [LT D] [LE D] [DecidableLT D] [DecidableLE D] [BEq D] {imax imax' : Int} (h : imax ≤ imax') (fuel n : Nat)
    (Mus : List (MuLimit D)) (Omegas : List (OmegaLimit D))
    (ho : ProblemSolver.run imax fuel n Mus Omegas ≠ .error .overflow) :
    ProblemSolver.run imax' fuel n Mus Omegas = ProblemSolver.run imax fuel n Mus Omegas := by
  have hw := ProblemSolver.run_wid h fuel n Mus Omegas
  generalize ProblemSolver.run imax fuel n Mus Omegas = x at hw ho
  generalize ProblemSolver.run imax' fuel n Mus Omegas = y at hw
  cases hw with
  | over y => exact absurd rfl ho
  | err e => rfl
  | ok e => rw [e]

/-- Integers up to 127 suffice for the example. -/
example : ProblemSolver.run 127 100 exP.n exMus exOmegas ≠ .error .overflow := by decide +kernel

/-- Integers up to 31 do not. -/
example : ProblemSolver.run 31 100 exP.n exMus exOmegas = .error .overflow := by decide +kernel

end AHO.Props
