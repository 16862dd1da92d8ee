import Verif.Proof.Oracle
import Verif.Proof.Transform
import Verif.Props.Example
/-!
# The brute-force oracle of the tests

`Oracle.bfSolve` is `bf_solve` of `test/test.cpp`.
-/

namespace AHO.Props
open Spec

section
variable {K : Type} [Field K] [LinearOrder K] [IsStrictOrderedRing K]
variable {P : Problem K} {Mus : List (MuLimit K)} {Omegas : List (OmegaLimit K)} {imax : Int}

theorem oracle_outcome (rep : Represents P Mus Omegas) (wf : WellFormed P) (cv : ∀ p ∈ P.pairs, Valley p.B p.l p.u)
    (rp : Representable imax P) {R : Int} (wi : Within P R) (hR0 : 0 ≤ R) (hR : 2 * R + 1 ≤ imax) :
    ∃ r, Outcome (ProblemSolver.problemCosts P) r ∧ Returns (fun fuel => Oracle.bfSolve imax fuel P.n Mus Omegas) r := by
  have key := fun fuel (hf : max (Flow.bits imax) (2 * R + 1).toNat < fuel) => Oracle.bfSolve_spec rep wf cv rp wi hR0 hR hf
  obtain ⟨r, -, h⟩ := key _ (Nat.lt_succ_self _)
  refine ⟨r, h, returns_of (max (Flow.bits imax) (2 * R + 1).toNat + 1) (fun fuel hf => ?_)
    fun f f' hff => Oracle.bfSolve_le hff P.n Mus Omegas⟩
  obtain ⟨r', e1, e2⟩ := key fuel hf
  rw [e1, outcome_unique h e2]

/-- C31. The oracle finishes without undefined behaviour and returns the optimum, or nothing if there is no solution. It does
not need convex node costs, of the pair costs it needs only that they do not decrease any more after a place where they did not decrease,
and it needs much less of `int` than the solver. -/
theorem C31_oracle_correct (rep : Represents P Mus Omegas) (wf : WellFormed P) (cv : ∀ p ∈ P.pairs, Valley p.B p.l p.u)
    (rp : Representable imax P) {R : Int} (wi : Within P R) (hR0 : 0 ≤ R) (hR : 2 * R + 1 ≤ imax) :
    ∃ r, Returns (fun fuel => Oracle.bfSolve imax fuel P.n Mus Omegas) r ∧ (∀ v, r = some v ↔ IsOptimum P v) ∧
      (r = none ↔ ¬ Solvable P) := by
  obtain ⟨r, h1, h2⟩ := oracle_outcome rep wf cv rp wi hR0 hR
  exact ⟨r, h2, outcome_some h1, outcome_none h1⟩

/-- The hypotheses are met, and the oracle finds 9, as the solver does. -/
example : Represents exP exMus exOmegas ∧ WellFormed exP ∧ (∀ p ∈ exP.pairs, Valley p.B p.l p.u) ∧ Representable (2 ^ 31 - 1) exP ∧
    Within exP (6 : Int) ∧ Oracle.bfSolve (2 ^ 31 - 1) 30 exP.n exMus exOmegas = .ok (some 9) :=
  ⟨ex_rep, ex_wf, fun p hp => (ex_cv.pairs p hp).valley, ex_representable, ex_within, by decide +kernel⟩

/-- C31. The solver and the oracle return the same. -/
theorem C31_solver_agrees_with_oracle (rep : Represents P Mus Omegas) (wf : WellFormed P) (cv : ConvexCosts P)
    (hn : P.n + 1 < 2 ^ 64) (cap : Capacity imax P) :
    ∃ r, Returns (fun fuel => ProblemSolver.run imax fuel P.n Mus Omegas) r ∧
      Returns (fun fuel => Oracle.bfSolve imax fuel P.n Mus Omegas) r := by
  obtain ⟨r, h1, h2⟩ := ProblemSolver.run_capacity rep wf cv hn cap
  obtain ⟨ri, W, wi, wd, hc⟩ := cap
  have hb := le_bitCeil ((P.n + 1) * W)
  have hp := bitCeil_pos ((P.n + 1) * W)
  have h3 : W ≤ (P.n + 1) * W := Nat.le_mul_of_pos_left _ (by omega)
  have h4 : 6 * (P.n + 1) * bitCeil ((P.n + 1) * W) ≥ 6 * bitCeil ((P.n + 1) * W) :=
    Nat.mul_le_mul_right _ (by omega)
  obtain ⟨r', h5, h6⟩ := oracle_outcome rep wf (fun p hp => (cv.pairs p hp).valley) ri wi (by omega) (by omega)
  rw [outcome_unique h1 h5] at h2
  exact ⟨r', h2, h6⟩

example : Represents exP exMus exOmegas ∧ WellFormed exP ∧ ConvexCosts exP ∧ exP.n + 1 < 2 ^ 64 ∧
    Capacity (2 ^ 31 - 1) exP := ⟨ex_rep, ex_wf, ex_cv, ex_n, ex_capacity⟩

end

/-- a node cost that is not convex: `1, 2, 0` on `[0, 2]` -/
def bumpMus : List (MuLimit ℚ) :=
  [⟨0, 0, fun _ => .error .callback⟩, ⟨0, 2, fun x => .ok (if x = 0 then 1 else if x = 1 then 2 else 0)⟩]

/-- C31. Convexity of the node costs matters for the solver, not for the oracle: on this instance the
solver returns a number which is not even the cost of an assignment. -/
theorem C31_convexity_needed : Returns (fun fuel => Oracle.bfSolve (2 ^ 31 - 1) fuel 1 bumpMus []) (some 0) ∧
    Returns (fun fuel => ProblemSolver.run (2 ^ 31 - 1) fuel 1 bumpMus []) (some (1 / 2)) :=
  ⟨returns_of_eval 40 (by decide +kernel) fun _ _ h => Oracle.bfSolve_le h _ _ _,
    returns_of_eval 40 (by decide +kernel) fun _ _ h => ProblemSolver.run_le h _ _ _⟩

end AHO.Props
