import Verif.Proof.Solve
import Verif.Link
import Verif.Proof.FlowSteps
/-!
# The network of the solver
-/

namespace AHO
open Spec
set_option linter.unusedSectionVars false

section
variable {K : Type} [Field K] [LinearOrder K] [IsStrictOrderedRing K]
variable {imax : Int} {n : Nat} {R W U : Int} {limits : List (OmegaLimit K)} {ps : List (Pair K)} {fuel : Nat}

theorem calc_spec (hR2 : 2 * R ≤ imax) (hbits : Flow.bits R < fuel) (hrep : List.Forall₂ OmegaLimit.Is limits ps) (g : ∀ p ∈ ps, ArcIn n R W p) :
    ∃ U, ProblemSolver.calc' imax fuel limits = .ok (vcm ps, bigM ps, U) ∧ 0 ≤ U ∧ (∀ p ∈ ps, p.u - p.l ≤ U) ∧ (U = 0 ∨ ∃ p ∈ ps, U = p.u - p.l) := by
  obtain ⟨U, c1, c2, c3, c4⟩ := ProblemSolver.calcLoop_spec (imax := imax) (fuel := fuel) hR2 hbits limits ps 0 1 0 hrep g
  rw [zero_add] at c1
  exact ⟨U, c1, c2, c3, c4⟩

/-- the arguments `solve` passes to the constructor of `Flow` -/
theorem netInput_of (hrep : List.Forall₂ OmegaLimit.Is limits ps) (g : ∀ p ∈ ps, ArcIn n R W p) (hR0 : 0 ≤ R) (hRW : R ≤ W)
    (hcap : 6 * ((n : Int) + 1) * (bitCeil ((n + 1) * W.toNat) : Nat) ≤ imax) (hU1 : 1 ≤ U) (hUW : U ≤ W) :
    NetInput imax n (bigM ps) U R limits ps := by
  set bc : Int := ((bitCeil ((n + 1) * W.toNat) : Nat) : Int) with hbc
  have hb1 : 1 ≤ bc := by have := bitCeil_pos ((n + 1) * W.toNat); omega
  have hbW : ((n : Int) + 1) * W ≤ bc := bitCeil_ge (by omega)
  have hW1 : W ≤ ((n : Int) + 1) * W := by
    have : (0 : Int) ≤ n * W := Int.mul_nonneg (by omega) (by omega)
    have h' : ((n : Int) + 1) * W = n * W + W := by ring
    omega
  have hbig : ((n : Int) + 1) * 1 ≤ ((n : Int) + 1) * bc := Int.mul_le_mul_of_nonneg_left hb1 (by omega)
  have hnb : 0 ≤ (n : Int) * bc := Int.mul_nonneg (by omega) (by omega)
  have hcap' : 6 * ((n : Int) * bc) + 6 * bc ≤ imax := by
    have : 6 * ((n : Int) + 1) * bc = 6 * ((n : Int) * bc) + 6 * bc := by ring
    omega
  have hR2 : 2 * R ≤ imax := by omega
  have hN : 2 * ((n : Int) + 1) ≤ imax := by
    have : ((n : Int) + 1) * bc = (n : Int) * bc + bc := by ring
    omega
  have ht := pow_exp_le (n := n) hU1 hUW
  rw [← hbc] at ht
  have hge := (exp_le (n := n) hU1 hUW).2
  have hM := bigM_pos g
  refine ⟨hrep, arcOK_of g, hM.le, hR0, hU1, ⟨hR2, hN, ?_, ?_⟩⟩
  · rw [Flow.epsilon₀_eq]
    have : (2 : Int) ^ Flow.epsExp n U = 2 ^ (Flow.epsExp n U - 1) * 2 := by
      rw [← pow_succ, Nat.sub_add_cancel hge]
    omega
  · rw [Flow.epsilon₀_half hU1]
    have hRb : 2 * ((n : Int) + 1) * R ≤ 2 * bc := by
      have : ((n : Int) + 1) * R ≤ ((n : Int) + 1) * W := Int.mul_le_mul_of_nonneg_left hRW (by omega)
      have h' : 2 * ((n : Int) + 1) * R = 2 * (((n : Int) + 1) * R) := by ring
      omega
    have h1 : (n : Int) * (2 * ((n : Int) + 1) * R + 2 ^ (Flow.epsExp n U - 1)) ≤ n * (2 * bc + bc) :=
      Int.mul_le_mul_of_nonneg_left (by omega) (by omega)
    have h2 : (3 * (n : Int) + 1) * (2 ^ (Flow.epsExp n U - 1) - 1) ≤ (3 * (n : Int) + 1) * bc :=
      Int.mul_le_mul_of_nonneg_left (by omega) (by omega)
    have h3 : (n : Int) * (2 * bc + bc) = 3 * (n * bc) := by ring
    have h4 : (3 * (n : Int) + 1) * bc = 3 * (n * bc) + bc := by ring
    omega

theorem front_some {Mus : List (MuLimit K)} {Omegas : List (OmegaLimit K)} (h : ProblemSolver.front imax fuel n Mus Omegas = .ok (some limits)) :
    ∃ s, ProblemSolver.mk' imax fuel n Mus Omegas = .ok s ∧ ProblemSolver.mergeLimits imax s = .ok (some limits) := by
  unfold ProblemSolver.front at h
  cases hm : ProblemSolver.mk' imax fuel n Mus Omegas with
  | error e => rw [hm] at h; cases h
  | ok s =>
    rw [hm, ok_bind] at h
    split at h
    · cases h
    · exact ⟨s, rfl, h⟩

end
end AHO
