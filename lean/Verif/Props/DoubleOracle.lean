import Verif.Proof.ExactOracle
import Verif.Props.Double
import Verif.Props.Oracle
/-!
# `bf_solve` with `Data = double`
-/

namespace AHO.Props
open Spec Format

/-- C50. If all costs are multiples of `2 ^ j` bounded by `G` and the sum of one cost per limit has at most `p` digits, the oracle `bf_solve` with
floating-point numbers of `p` digits returns the exact optimum. -/
theorem C50_oracle_exact {f : Format} {j : Int} (hj : f.emin ≤ j) (hm : f.p + j ≤ f.emax)
    {imax : Int} {P : Problem ℚ} {Mus : List (MuLimit (Flt f))} {Omegas : List (OmegaLimit (Flt f))}
    (rep : Represents (P.mapCosts (Flt.ofRat f)) Mus Omegas) (wf : WellFormed P) (cv : ∀ p ∈ P.pairs, Valley p.B p.l p.u)
    (ri : Representable imax P) {R : Int} (wi : Within P R) (hR0 : 0 ≤ R) (hR : 2 * R + 1 ≤ imax)
    {G : ℚ} (hG : 0 ≤ G) (hv : P.AllCosts fun v => (∃ k : Int, v = k * (2 : ℚ) ^ j) ∧ |v| ≤ G)
    (hI : ((P.n + P.pairs.length : Nat) : ℚ) * G < 2 ^ f.p * (2 : ℚ) ^ j) :
    ∃ r : Option ℚ, Returns (fun fuel => Oracle.bfSolve imax fuel P.n Mus Omegas) (r.map (Flt.ofRat f)) ∧
      (∀ v, r = some v ↔ IsOptimum P v) ∧ (r = none ↔ ¬ Solvable P) := by
  obtain ⟨r, h1, h2, h3⟩ := C31_oracle_correct (exact_represents P) wf cv ri wi hR0 hR
  obtain ⟨⟨N, h4⟩, -⟩ := h1
  have hv' : P.AllCosts fun v => v ∈ AddSubgroup.zmultiples (pow2 j) ∧ |v| ≤ G := by
    refine hv.mono ?_
    rintro v ⟨⟨k, hk⟩, hb⟩
    exact ⟨AddSubgroup.mem_zmultiples_iff.2 ⟨k, by rw [hk, zsmul_eq_mul]; rfl⟩, hb⟩
  refine ⟨r, returns_of_eval N ?_ fun _ _ h => Oracle.bfSolve_le h _ _ _, h2, h3⟩
  exact (Oracle.bfSolve_sim (N := P.n + P.pairs.length) (fun x hx => exact_of_mem hj hm hx.1 (lt_of_le_of_lt hx.2 hI)) hG (exact_musSim rep hv')
    (exact_omSim rep hv') (by simp [exactOmegas]) r (h4 N le_rfl)).1

/-- The example meets the hypotheses of C50. -/
example : ∃ r : Option ℚ, Returns (fun fuel => Oracle.bfSolve (2 ^ 31 - 1) fuel exP.n exMusD exOmegasD) (r.map (Flt.ofRat binary64)) ∧
    (∀ v, r = some v ↔ IsOptimum exP v) ∧ (r = none ↔ ¬ Solvable exP) := by
  refine C50_oracle_exact (j := 0) (G := 75) (by decide) (by decide) ex_repD ex_wf (fun p hp => (ex_cv.pairs p hp).valley) ex_representable ex_within (by decide) (by decide)
    (by norm_num) (ex_costs.mono ?_) (by norm_num [exP, binary64])
  rintro v ⟨k, rfl, hk⟩
  exact ⟨⟨k, by simp⟩, by exact_mod_cast hk⟩

end AHO.Props
