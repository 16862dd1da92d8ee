import Verif.Proof.Assign
import Verif.Props.Dual
import Verif.Props.Solver
/-!
# Reading off an optimal assignment
-/

namespace AHO.Props
open Spec
set_option linter.unusedSectionVars false

section
variable {K : Type} [Field K] [LinearOrder K] [IsStrictOrderedRing K]
variable {P : Problem K} {Mus : List (MuLimit K)} {Omegas : List (OmegaLimit K)} {imax : Int}

/-- C84. `solve` returns only the least cost, but an optimal assignment is left in the network when the loop of `min_cost` has ended: if some variable has
more than one value, then for some `t < 2 (n+1)` the values `⌊(scaling[i] + t) / (2 (n+1))⌋ - ⌊(scaling[0] + t) / (2 (n+1))⌋` of the variables satisfy
the constraints, with suitable omegas, and cost what is returned. -/
theorem C84_assignment (rep : Represents P Mus Omegas) (wf : WellFormed P) (cv : ConvexCosts P) (hn : P.n + 1 < 2 ^ 64) (cap : Capacity imax P)
    {j : Nat} (j1 : 1 ≤ j) (j2 : j ≤ P.n) (hj : P.lo j < P.hi j) {v : K}
    (hv : Returns (fun fuel => ProblemSolver.run imax fuel P.n Mus Omegas) (some v)) :
    ∃ N, ∀ fuel, N ≤ fuel → ∃ ps limits vcm M U s s', ProblemSolver.mk' imax fuel P.n Mus Omegas = .ok ps ∧
      ProblemSolver.mergeLimits imax ps = .ok (some limits) ∧ ProblemSolver.calc' imax fuel limits = .ok (vcm, M, U) ∧
      Flow.mk' imax fuel P.n M U limits = .ok s ∧ Flow.phases imax fuel s = .ok s' ∧
      ∃ t : Nat, t < 2 * (P.n + 1) ∧ ∃ (μ : Nat → Int) (ω : Nat → Int),
        (∀ i, μ i = (s'.scaling.get i + t) / (2 * ((P.n : Int) + 1)) - (s'.scaling.get 0 + t) / (2 * ((P.n : Int) + 1))) ∧
        Feasible P μ ω ∧ cost P μ ω = v := by
  obtain ⟨ri, W, wi, wd, hc⟩ := cap
  have hc' : 6 * ((P.n : Int) + 1) * (bitCeil ((P.n + 1) * (W : Int).toNat) : Nat) ≤ imax := by push_cast at hc ⊢; simpa using hc
  have hR2 := ProblemSolver.capacity_range (R := W) (W := W) (by omega) le_rfl hc'
  obtain ⟨⟨N₀, hN₀⟩, -⟩ := hv
  refine ⟨max N₀ (solveFuel P.n (P.pairs.length + P.n) imax W), fun fuel hf => ?_⟩
  have hf1 : solveFuel P.n (P.pairs.length + P.n) imax W ≤ fuel := by omega
  have hbits : Flow.bits imax < fuel := by unfold solveFuel at hf1; omega
  have hrun : ProblemSolver.run imax fuel P.n Mus Omegas = .ok (some v) := hN₀ fuel (by omega)
  rw [ProblemSolver.run_front hn] at hrun
  rcases ProblemSolver.front_core rep wf cv wi wd ri hn (by omega) hR2 hbits with ⟨h1, h2⟩ | ⟨limits, ps, h1, h2, h3, h4, h5, h6, -, h8, h9⟩
  · rw [h1] at hrun
    cases hrun
  · have hlf : solveFuel P.n limits.length W W ≤ fuel :=
      le_trans (le_trans (solveFuel_mono h4) (solveFuel_mono' (by omega))) hf1
    have hbW : Flow.bits W < fuel := by unfold solveFuel at hlf; omega
    obtain ⟨U, c1, c2, c3, c4⟩ := calc_spec (imax := imax) (fuel := fuel) hR2 hbW h2 h3
    have hU1 : 1 ≤ U := by
      have := c3 _ (h9 _ (ProblemSolver.mem_musP.2 ⟨j, j1, j2, rfl⟩))
      dsimp only at this
      omega
    have hUW : U ≤ W := by
      rcases c4 with h | ⟨p, hp, h⟩
      · omega
      · have := (h3 p hp).wd; omega
    have I := netInput_of h2 h3 (by omega) le_rfl hc' hU1 hUW
    obtain ⟨s, s', v', s'', d1, d2, d3, d4, -, -, -, -, t, t1, t2⟩ := NetInput.dual I
      (le_trans (minFuel_le hU1 hUW (by omega) le_rfl _) hlf)
    rw [h1, ok_bind] at hrun
    dsimp only at hrun
    unfold ProblemSolver.solveLimits at hrun
    rw [c1, ok_bind] at hrun
    dsimp only at hrun
    rw [d1, ok_bind, d3, ok_bind] at hrun
    dsimp only at hrun
    split at hrun
    · cases hrun
    · rename_i hle
      obtain rfl : v' = v := by cases hrun; rfl
      have hfe : ArcsFeasible ps fun i => (s'.scaling.get i + t) / (2 * ((P.n : Int) + 1)) := by
        by_contra h
        have := penalised_infeasible h3 h
        rw [t2] at this
        linarith
      obtain ⟨ω, f1, f2⟩ := h8 _ hfe
      obtain ⟨sv, e1, e2⟩ := front_some h1
      exact ⟨sv, limits, _, _, U, s, s', e1, e2, c1, d1, d2, t, t1, _, ω, fun _ => rfl, f1, by rw [f2, ← penalised_feasible hfe, t2]⟩

/-- The hypotheses are met by the example problem, whose result is 9. -/
example : Represents exP exMus exOmegas ∧ WellFormed exP ∧ ConvexCosts exP ∧ exP.n + 1 < 2 ^ 64 ∧ Capacity (2 ^ 31 - 1) exP ∧
    (∃ j, 1 ≤ j ∧ j ≤ exP.n ∧ exP.lo j < exP.hi j) ∧ Returns (fun fuel => ProblemSolver.run (2 ^ 31 - 1) fuel exP.n exMus exOmegas) (some 9) :=
  ⟨ex_rep, ex_wf, ex_cv, ex_n, ex_capacity, ⟨1, by decide +kernel, by decide +kernel, by decide +kernel⟩,
    returns_of_eval 1000 (by decide +kernel) fun _ _ h => ProblemSolver.run_le h _ _ _⟩

end
end AHO.Props
