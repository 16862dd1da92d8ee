import Verif.Proof.FlowTime
import Verif.Props.Flow
/-!
# Running time of the loop of `Flow::min_cost` (C58)
-/

namespace AHO
open Spec Flow

namespace Props
variable {K : Type} [Field K] [LinearOrder K] [IsStrictOrderedRing K]
variable {imax : Int} {n : Nat} {M : K} {U R : Int} {limits : List (OmegaLimit K)} {arcs : List (Pair K)}

/-- C58: the counters of `phasesC` do not change what is computed. -/
theorem C58_counters_only {D : Type} [Zero D] [One D] [Add D] [Sub D] [Neg D] [BEq D] [LT D] [LE D] [DecidableLT D] [DecidableLE D]
    (imax : Int) (fuel : Nat) (s : Flow D) : (phasesC imax fuel s).map (·.2) = phases imax fuel s := phasesC_er imax fuel s

/-- how often the potential of one node is raised in all the phases, at most -/
def raises (n : Nat) (U R : Int) : Nat :=
  if R ≤ U then phaseCount n U * (3 * n + 1) else (2 * n * R.toNat + n + 1) + (phaseCount n U - 1) * (3 * n + 1)

/-- the running time of the phases, for the fuel `fuel` -/
theorem phases_time (I : NetInput imax n M U R limits arcs) {fuel : Nat}
    (hf : minFuel n limits.length U R (2 * ((n : Int) + 1) * R) ≤ fuel) : ∃ s c s', Flow.mk' imax fuel n M U limits = .ok s ∧
      phasesC imax fuel s = .ok (c, s') ∧ Flow.Static (inputNet n M limits arcs) s' ∧
      c.rounds ≤ raises n U R * (6 * arcs.length + n + 1) + phaseCount n U * (4 * arcs.length + n + 1) ∧
      (c.steps : ℝ) ≤ 9 * (42 * Real.logb 2 (n + 2) + 11) * c.rounds ∧
      c.walk ≤ 3 * (n + 1) * c.rounds ∧
      c.iters ≤ c.rounds + 4 * arcs.length * raises n U R + phaseCount n U * (4 * arcs.length + 3 * n + 3) ∧
      c.evals ≤ 2 * c.iters + 4 * c.rounds := by
  obtain ⟨s, B, c, s', e1, e2, e3, -, e4, e5, e6, e7, e8, e9⟩ := NetInput.time I hf
  have hlen : limits.length = arcs.length := I.rep.length_eq
  have hk : phaseCount n U = epsExp n U := rfl
  have hpos := epsExp_pos (n := n) I.U_pos
  have hb : ∑ k ∈ Finset.range (epsExp n U), relabels n B k ≤ raises n U R := by
    obtain ⟨t, ht⟩ : ∃ t, epsExp n U = t + 1 := ⟨_, (Nat.succ_pred_eq_of_pos hpos).symm⟩
    unfold raises
    rw [hk, ht, Finset.sum_range_succ']
    have h1 : ∑ k ∈ Finset.range t, relabels n B (k + 1) = t * (3 * n + 1) := by
      simp [relabels]
    have h2 : relabels n B 0 = B := if_pos rfl
    rw [h1, h2, e2]
    split
    · rename_i hRU
      have := firstB_near (n := n) I.U_pos I.R_nonneg hRU
      rw [Nat.add_mul, Nat.one_mul]
      omega
    · have := firstB_le (n := n) I.U_pos I.R_nonneg
      rw [Nat.add_sub_cancel]
      omega
  refine ⟨s, c, s', e1, e3, e9, ?_, ?_, e6, ?_, e8⟩
  · have h1 : ∀ t, ∑ k ∈ Finset.range t, roundFuel n (2 * limits.length) (relabels n B k) =
        (∑ k ∈ Finset.range t, relabels n B k) * (6 * arcs.length + n + 1) + t * (4 * arcs.length + n + 2) := by
      intro t
      induction t with
      | zero => simp
      | succ t ih =>
        rw [Finset.sum_range_succ, Finset.sum_range_succ, ih]
        unfold roundFuel
        rw [hlen]
        ring
    rw [h1] at e4
    have h2 := Nat.mul_le_mul_right (6 * arcs.length + n + 1) hb
    have h3 : epsExp n U * (4 * arcs.length + n + 2) = epsExp n U * (4 * arcs.length + n + 1) + epsExp n U := by ring
    rw [hk]
    omega
  · have : LCT.opA (n + 1) = 42 * Real.logb 2 (n + 2) + 11 := by
      unfold LCT.opA LCT.lg
      push_cast
      ring_nf
    rw [← this]; exact e7
  · have h1 : ∀ t, ∑ k ∈ Finset.range t, (4 * limits.length + 4 * limits.length * relabels n B k + 3 * (n + 1)) =
        4 * arcs.length * (∑ k ∈ Finset.range t, relabels n B k) + t * (4 * arcs.length + 3 * n + 3) := by
      intro t
      induction t with
      | zero => simp
      | succ t ih =>
        rw [Finset.sum_range_succ, Finset.sum_range_succ, ih, hlen]
        ring
    rw [h1] at e5
    have h2 := Nat.mul_le_mul_left (4 * arcs.length) hb
    rw [hk]
    omega

/-- C58. Take a network with `n + 1` nodes and `m` arcs; let `b = raises n U R` and let `k` be the number of phases. All the phases together take
at most `b (6m + n + 1) + k (4m + n + 1)` rounds of the loop of `refine`. In the link-cut tree they make
at most `9 (42 log₂ (n + 2) + 11)` calls of `rot` and `push_down_from_root` and iterations of the loop of `access` for each round,
and at most `3 (n + 1)` iterations of the loops of `find_root` and `get_min_wtrbnr` for each round. All the other loops
make at most `4 m b + k (4m + 3n + 3)` iterations more than there are rounds. The function of an arc is evaluated at most twice for each of these
iterations and four times for each round. -/
theorem C58_running_time (I : NetInput imax n M U R limits arcs) :
    ∃ N, ∀ fuel, N ≤ fuel → ∃ s c s', Flow.mk' imax fuel n M U limits = .ok s ∧ phasesC imax fuel s = .ok (c, s') ∧
      c.rounds ≤ raises n U R * (6 * arcs.length + n + 1) + phaseCount n U * (4 * arcs.length + n + 1) ∧
      (c.steps : ℝ) ≤ 9 * (42 * Real.logb 2 (n + 2) + 11) * c.rounds ∧
      c.walk ≤ 3 * (n + 1) * c.rounds ∧
      c.iters ≤ c.rounds + 4 * arcs.length * raises n U R + phaseCount n U * (4 * arcs.length + 3 * n + 3) ∧
      c.evals ≤ 2 * c.iters + 4 * c.rounds := by
  refine ⟨minFuel n limits.length U R (2 * ((n : Int) + 1) * R), fun fuel hf => ?_⟩
  obtain ⟨s, c, s', e1, e2, -, e3⟩ := phases_time I hf
  exact ⟨s, c, s', e1, e2, e3⟩

/-- The hypothesis is met by the example network. Every potential is raised at most 28 times in four phases. -/
example : NetInput (2 ^ 31 - 1) 2 (10 : ℚ) 2 2 exLimits exArcs ∧ phaseCount 2 2 = 4 ∧ raises 2 2 2 = 28 :=
  ⟨exArcs_input, by decide +kernel, by decide +kernel⟩

end Props
end AHO
