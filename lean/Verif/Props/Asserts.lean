import Verif.Proof.SolverAssert
import Verif.Props.MemorySafety
/-!
# C66: the assertions of the program hold, whatever the costs and the arithmetic

The assertions are those of `Flow::Flow` (`src/Flow.cpp:12,14`), `OmegaLimit::merge` (`src/ProblemDefine.cpp:49-50`), `Node::set_fa` and `Node::cut`
(`3rd/lct/LCT.cpp:16,22`); the checks in the constructor of `ProblemSolver` are redefined there and do not stop the program. As in C64, nothing is
assumed about the type of the costs: its operations and comparisons are any functions.
-/

namespace AHO.Props
open Format Spec

section
variable {D : Type} [Zero D] [One D] [Add D] [Sub D] [Neg D] [Mul D] [Div D] [IntCast D]
  [LT D] [LE D] [DecidableLT D] [DecidableLE D] [BEq D] {n : Nat} {Mus : List (MuLimit D)} {Omegas : List (OmegaLimit D)}

/-- C66. No assertion of the program fails: for all limits, well-formed or not, all costs, convex or not, all arithmetics and all sizes of `int`.
(A failed assertion inside a callback is not one of the program.) -/
theorem C66_no_failed_assertion (hm : ∀ i m, 1 ≤ i → Mus[i]? = some m → ∀ x, m.fn x ≠ .error .assertFail)
    (ho : ∀ o ∈ Omegas, ∀ x, o.fn x ≠ .error .assertFail) (imax : Int) (fuel : Nat) :
    ProblemSolver.run imax fuel n Mus Omegas ≠ .error .assertFail :=
  ProblemSolver.run_nf hm ho

/-- Callbacks which return are enough. -/
example (imax : Int) (fuel : Nat) : ProblemSolver.run imax fuel 2 [⟨0, 0, fun _ => .ok (0 : ℚ)⟩, ⟨-3, 4, fun x => .ok (x : ℚ)⟩, ⟨0, 7, fun x => .ok (-x : ℚ)⟩]
    [⟨⟨-1, 1, fun x => .ok (x ^ 3 : ℚ)⟩, 1, 2⟩] ≠ .error .assertFail := by
  refine C66_no_failed_assertion (fun i m h1 h2 x => ?_) (fun o ho x => ?_) imax fuel
  · match i, h1, h2 with
    | 1, _, h2 => cases h2; exact fun h => by cases h
    | 2, _, h2 => cases h2; exact fun h => by cases h
  · rw [List.mem_singleton] at ho
    subst ho
    exact fun h => by cases h

/-- C66. With C64: if the callbacks can be called on their ranges, the program returns, or goes on for ever, or an `int` overflows. -/
theorem C66_outcomes (hn : n + 1 < 2 ^ 64)
    (hm : ∀ i m, 1 ≤ i → Mus[i]? = some m → ∀ x, (m.l ≤ x → x ≤ m.u → ∃ v, m.fn x = .ok v) ∧ m.fn x ≠ .error .assertFail)
    (ho : ∀ o ∈ Omegas, ∀ x, (o.l ≤ x → x ≤ o.u → ∃ v, o.fn x = .ok v) ∧ o.fn x ≠ .error .assertFail)
    (imax : Int) (fuel : Nat) (e : Err) (he : ProblemSolver.run imax fuel n Mus Omegas = .error e) : e = .fuel ∨ e = .overflow := by
  rcases C64_memory_safe hn (fun i m h1 h2 x => (hm i m h1 h2 x).1) (fun o h x => (ho o h x).1) imax fuel e he with h | h | h
  · exact .inl h
  · exact .inr h
  · subst h
    exact absurd he (C66_no_failed_assertion (fun i m h1 h2 x => (hm i m h1 h2 x).2) (fun o h x => (ho o h x).2) imax fuel)

end

/-- The costs 0, 2, 0 are not convex; the program closes a cycle of links and goes on for ever. -/
example : (∀ i m, 1 ≤ i → cycleMus[i]? = some m → ∀ x, (m.l ≤ x → x ≤ m.u → ∃ v, m.fn x = .ok v) ∧ m.fn x ≠ .error .assertFail) ∧
    ∀ fuel, ProblemSolver.run 144 fuel 2 cycleMus [] = .error .fuel := by
  refine ⟨fun i m h1 h2 x => ?_, cycle_run⟩
  match i, h1, h2 with
  | 1, _, h2 => cases h2; exact ⟨fun _ _ => ⟨_, rfl⟩, fun h => by cases h⟩
  | 2, _, h2 => cases h2; exact ⟨fun _ _ => ⟨_, rfl⟩, fun h => by cases h⟩

/-- An infinite cost of type `double`: the program computes with numbers which are not numbers until an `int` overflows. -/
example : (∀ i m, 1 ≤ i → infiniteMus[i]? = some m → ∀ x, (m.l ≤ x → x ≤ m.u → ∃ v, m.fn x = .ok v) ∧ m.fn x ≠ .error .assertFail) ∧
    ∃ N, ∀ fuel, N ≤ fuel → ProblemSolver.run 1000 fuel 1 infiniteMus [] = .error .overflow := by
  refine ⟨fun i m h1 h2 x => ?_, C62_infinite_cost.2.2.2.2.2 1000⟩
  match i, h1, h2 with
  | 1, _, h2 => cases h2; exact ⟨fun _ _ => ⟨_, rfl⟩, fun h => by cases h⟩

end AHO.Props
