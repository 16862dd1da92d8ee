import Verif.Proof.SimpleMono
import Verif.Proof.Oracle
import Verif.Props.Double
/-!
# C69: `simple_solve` with `double` on costs which are not multiples of a power of two

The capacities of the network are differences of costs and of `M = 10 ^ 9`, and `double` keeps only 7 digits after the point next to `10 ^ 9`. What enters
a node and what leaves it differ by the rounding errors. The result is compared with the sum of the costs at the ends of the ranges, to find out whether
there is a solution (`test/SimpleSolver.cpp:110-113`), and the value `false` of `MinCost` is ignored (`test/SimpleSolver.cpp:93`).
-/

namespace AHO.Props
open Spec Format

/-- Two variables: `μ 1 = 0`, `s ≤ μ 2 ≤ s + 1` with the cost `c * μ 2`; and one pair without cost, which says that `-(s + 1)` is at least the difference. So
`μ 2 = s + 1` is the only solution. -/
def forcedP (c : ℚ) (s : Int) : Problem ℚ where
  n := 2
  lo := fun i => if i = 1 then 0 else s
  hi := fun i => if i = 1 then 0 else s + 1
  F := fun i x => if i = 1 then 0 else c * x
  pairs := [⟨1, 2, -(s + 1), -(s + 1), fun _ => 0⟩]

/-- the limits of `forcedP` -/
def forcedMus (c : ℚ) (s : Int) : List (MuLimit (Flt binary64)) :=
  [⟨0, 0, fun _ => .error .callback⟩, ⟨0, 0, fun _ => .ok (Flt.ofRat _ 0)⟩, ⟨s, s + 1, fun x => .ok (Flt.ofRat _ (c * x))⟩]

/-- the limit of the pair of `forcedP` -/
def forcedOmegas (s : Int) : List (OmegaLimit (Flt binary64)) := [⟨⟨-(s + 1), -(s + 1), fun _ => .ok (Flt.ofRat _ 0)⟩, 1, 2⟩]

theorem forced_rep (c : ℚ) (s : Int) : Represents ((forcedP c s).mapCosts (Flt.ofRat binary64)) (forcedMus c s) (forcedOmegas s) := by
  refine ⟨rfl, ?_, ?_⟩
  · intro i h h1
    have h3 : i < 3 := h
    interval_cases i
    · exact ⟨rfl, rfl, fun x a b => rfl⟩
    · exact ⟨rfl, rfl, fun x a b => rfl⟩
  · exact .cons ⟨rfl, rfl, rfl, rfl, fun x a b => rfl⟩ .nil

theorem forced_wf (c : ℚ) (s : Int) : WellFormed (forcedP c s) := by
  constructor <;> simp [forcedP]
  intro i h1 h2
  split <;> omega

theorem forced_cv (c : ℚ) (s : Int) : ConvexCosts (forcedP c s) := by
  constructor
  · intro i h1 h2 x a b
    simp only [forcedP] at a b ⊢
    split <;> push_cast <;> linarith
  · simp [forcedP, Convex]

theorem forced_cost (c : ℚ) (s : Int) (μ ω : Nat → Int) : cost (forcedP c s) μ ω = c * μ 2 := by
  simp [cost, forcedP, show Finset.Icc 1 2 = ({1, 2} : Finset Nat) from rfl]

theorem forced_optimum (c : ℚ) (s : Int) : IsOptimum (forcedP c s) (c * ((s + 1 : Int) : ℚ)) := by
  refine ⟨⟨fun i => if i = 1 then 0 else s + 1, fun _ => -(s + 1), ⟨fun i h1 h2 => ?_, fun k hk => ?_⟩, ?_⟩, fun μ ω h => ?_⟩
  · simp only [forcedP]
    split <;> omega
  · obtain rfl : k = 0 := by simpa [forcedP] using hk
    simp [forcedP]
  · simp [forced_cost]
  · have h2 := h.1 2 (by decide) le_rfl
    have h1 := h.1 1 (by decide) (show 1 ≤ 2 by decide)
    have h3 := h.2 0 (show 0 < 1 by decide)
    simp [forcedP] at h1 h2 h3
    have : μ 2 = s + 1 := by omega
    rw [forced_cost, this]

/-- The cost 0.1 per unit, with `-1 ≤ μ 2 ≤ 0` -/
def tenth : ℚ := binary64.round (1 / 10)

/-- C69. The second reference program reports that there is no solution, although there is one; `bf_solve` and the solver find it. -/
theorem C69_simple_misses_solution : Represents ((forcedP tenth (-1)).mapCosts (Flt.ofRat binary64)) (forcedMus tenth (-1)) (forcedOmegas (-1)) ∧
    WellFormed (forcedP tenth (-1)) ∧ ConvexCosts (forcedP tenth (-1)) ∧ IsOptimum (forcedP tenth (-1)) 0 ∧
    Returns (fun fuel => SimpleSolver.solve (2 ^ 31 - 1) fuel 2 (forcedMus tenth (-1)) (forcedOmegas (-1))) none ∧
    Returns (fun fuel => Oracle.bfSolve (2 ^ 31 - 1) fuel 2 (forcedMus tenth (-1)) (forcedOmegas (-1))) (some (Flt.ofRat _ 0)) ∧
    Returns (fun fuel => ProblemSolver.run (2 ^ 31 - 1) fuel 2 (forcedMus tenth (-1)) (forcedOmegas (-1))) (some (Flt.ofRat _ 0)) := by
  refine ⟨forced_rep _ _, forced_wf _ _, forced_cv _ _, by simpa using forced_optimum tenth (-1), ?_, ?_, ?_⟩
  · exact returns_of_eval 100 (by decide +kernel) fun _ _ h => SimpleSolver.solve_le h _ _ _
  · exact returns_of_eval 60 (by decide +kernel) fun _ _ h => Oracle.bfSolve_le h _ _ _
  · exact returns_of_eval 200 (by decide +kernel) fun _ _ h => ProblemSolver.run_le h _ _ _

/-- The cost 100000000.3 per unit, with `0 ≤ μ 2 ≤ 1` -/
def dear : ℚ := binary64.round (1000000003 / 10)

/-- C69. The second reference program returns 0, although every solution costs more than `10 ^ 8`; `bf_solve` and the solver return the optimum. -/
theorem C69_simple_wrong_value : Represents ((forcedP dear 0).mapCosts (Flt.ofRat binary64)) (forcedMus dear 0) (forcedOmegas 0) ∧
    WellFormed (forcedP dear 0) ∧ ConvexCosts (forcedP dear 0) ∧ IsOptimum (forcedP dear 0) dear ∧ 10 ^ 8 < dear ∧
    Returns (fun fuel => SimpleSolver.solve (2 ^ 31 - 1) fuel 2 (forcedMus dear 0) (forcedOmegas 0)) (some (Flt.ofRat _ 0)) ∧
    Returns (fun fuel => Oracle.bfSolve (2 ^ 31 - 1) fuel 2 (forcedMus dear 0) (forcedOmegas 0)) (some (Flt.ofRat _ dear)) ∧
    Returns (fun fuel => ProblemSolver.run (2 ^ 31 - 1) fuel 2 (forcedMus dear 0) (forcedOmegas 0)) (some (Flt.ofRat _ dear)) := by
  refine ⟨forced_rep _ _, forced_wf _ _, forced_cv _ _, by simpa using forced_optimum dear 0, by decide +kernel, ?_, ?_, ?_⟩
  · exact returns_of_eval 400 (by decide +kernel) fun _ _ h => SimpleSolver.solve_le h _ _ _
  · exact returns_of_eval 60 (by decide +kernel) fun _ _ h => Oracle.bfSolve_le h _ _ _
  · exact returns_of_eval 200 (by decide +kernel) fun _ _ h => ProblemSolver.run_le h _ _ _

end AHO.Props
