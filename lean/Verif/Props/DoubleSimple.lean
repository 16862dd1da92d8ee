import Verif.Proof.ExactSimple
import Verif.Props.DoubleOracle
import Verif.Props.Simple
/-!
# `simple_solve` with `Data = double`
-/

namespace AHO.Props
open Spec Format

/-- C51. If all costs are multiples of `2 ^ j` with `j ≤ 0` bounded by `G` and the numbers are small enough, `simple_solve` with floating-point numbers
of `p` digits returns the exact optimum. Its arcs have capacities up to `10^9`, so the sums need more digits than those of `bf_solve`; the potentials
are multiples of a power of two of about `1 / (R * (n + 1))`. -/
theorem C51_simple_exact {f : Format} {j : Int} (hj0 : j ≤ 0) (hj : f.emin ≤ j - 1) (hj' : f.emin ≤ -f.p) (hm : f.p ≤ f.emax)
    {imax : Int} {P : Problem ℚ} {Mus : List (MuLimit (Flt f))} {Omegas : List (OmegaLimit (Flt f))}
    (rep : Represents (P.mapCosts (Flt.ofRat f)) Mus Omegas) (wf : WellFormed P) (cv : ConvexCosts P)
    {R : Nat} (hR1 : 1 ≤ R) (cap : SimpleCapacity imax P R) (sp : Spread P (10 ^ 9))
    {G : ℚ} (hG : 0 ≤ G) (hv : P.AllCosts fun v => (∃ k : Int, v = k * (2 : ℚ) ^ j) ∧ |v| ≤ G)
    (hp : 36 * (R * (P.n + 1)) ^ 2 < 2 ^ f.p)
    (hI : 4 * 10 ^ 9 * ((R : ℚ) + 1) * ((P.n + P.pairs.length : Nat) + 1) + ((P.n + P.pairs.length : Nat) + 4) * G < 2 ^ f.p * (2 : ℚ) ^ (j - 1)) :
    ∃ r : Option ℚ, Returns (fun fuel => SimpleSolver.solve imax fuel P.n Mus Omegas) (r.map (Flt.ofRat f)) ∧
      (∀ v, r = some v ↔ IsOptimum P v) ∧ (r = none ↔ ¬ Solvable P) := by
  have rep0 := exact_represents P
  obtain ⟨r, h1, h2, h3⟩ := C44_simple_correct rep0 wf cv cap sp
  have sp' : Spread P (SimpleSolver.bigM : ℚ) := by
    have : (SimpleSolver.bigM : ℚ) = 10 ^ 9 := by unfold SimpleSolver.bigM; norm_num
    rw [this]; exact sp
  obtain ⟨⟨N, h4⟩, -⟩ := h1
  have hv' : P.AllCosts (SimpleSolver.Val (AddSubgroup.zmultiples (pow2 j)) G) := by
    refine hv.mono ?_
    rintro v ⟨⟨k, hk⟩, hb⟩
    exact ⟨AddSubgroup.mem_zmultiples_iff.2 ⟨k, by rw [hk, zsmul_eq_mul]; rfl⟩, hb⟩
  have hn0 : (0 : ℚ) ≤ ((P.n + P.pairs.length : Nat) : ℚ) := Nat.cast_nonneg _
  have hR0 : (1 : ℚ) ≤ R := by exact_mod_cast hR1
  have hNG := mul_nonneg hn0 hG
  have hNR : 0 ≤ (R : ℚ) * ((P.n + P.pairs.length : Nat) : ℚ) := mul_nonneg (by linarith) hn0
  set C : ℚ := 4 * 10 ^ 9 * ((R : ℚ) + 1) * ((P.n + P.pairs.length : Nat) + 1) + ((P.n + P.pairs.length : Nat) + 4) * G with hC
  have hb : SimpleSolver.ExB f (AddSubgroup.zmultiples (pow2 j)) G C := by
    refine ⟨?_, hG, fun x hx hxb => ?_, ?_⟩
    · refine AddSubgroup.mem_zmultiples_iff.2 ⟨2 ^ (-j).toNat, ?_⟩
      rw [zsmul_eq_mul]
      unfold pow2
      push_cast
      rw [← zpow_natCast, ← zpow_add₀ (by norm_num), show (((-j).toNat : Nat) : Int) + j = 0 by omega, zpow_zero]
    · refine exact_of_mem (j := j - 1) hj (by omega) ?_ (lt_of_le_of_lt hxb hI)
      obtain ⟨k, hk⟩ := AddSubgroup.mem_zmultiples_iff.1 hx
      refine AddSubgroup.mem_zmultiples_iff.2 ⟨k, ?_⟩
      rw [zsmul_eq_mul] at hk ⊢
      have e : pow2 j = pow2 (j - 1) * 2 := by unfold pow2; rw [← zpow_add_one₀ (by norm_num)]; congr 1; ring
      rw [e] at hk
      linarith
    · rw [hC]; linarith
  set J := Nat.clog 2 (R * (P.n + 1) + 1) with hJ
  have hJ1 : R * (P.n + 1) < 2 ^ J := Nat.lt_of_succ_le (Nat.le_pow_clog (by norm_num) _)
  have hJ2 : 2 ^ J ≤ 2 * (R * (P.n + 1)) := by
    have hpos : 1 ≤ R * (P.n + 1) := Nat.mul_pos hR1 (Nat.succ_pos _)
    have hJpos : 0 < J := Nat.clog_pos (by norm_num) (by omega)
    have := Nat.pow_pred_clog_lt_self (b := 2) (by norm_num) (x := R * (P.n + 1) + 1) (by omega)
    rw [← hJ] at this
    have e : 2 ^ J = 2 * 2 ^ J.pred := by
      rw [← pow_succ']; congr 1; exact (Nat.succ_pred_eq_of_pos hJpos).symm
    omega
  have hJp : J < f.p := by
    refine (Nat.pow_lt_pow_iff_right (a := 2) (by norm_num)).1 (lt_of_le_of_lt hJ2 (lt_of_le_of_lt ?_ hp))
    have hpos : 1 ≤ R * (P.n + 1) := Nat.mul_pos hR1 (Nat.succ_pos _)
    nlinarith
  have hXP : ∀ x ∈ AddSubgroup.zmultiples (pow2 (-J)), |x| ≤ (12 * ((P.n : ℚ) + 1) + 3) * R + 3 → Exact f x := by
    intro x hx hxb
    refine exact_of_mem (by omega) (by omega) hx (lt_of_le_of_lt hxb ?_)
    unfold pow2
    rw [zpow_neg, zpow_natCast, ← div_eq_mul_inv, lt_div_iff₀ (by positivity)]
    have h5 : ((12 * (P.n + 1) + 3) * R + 3) * 2 ^ J < 2 ^ f.p := by
      refine lt_of_le_of_lt ?_ hp
      have h6 : (12 * (P.n + 1) + 3) * R + 3 ≤ 18 * (R * (P.n + 1)) := by nlinarith
      calc ((12 * (P.n + 1) + 3) * R + 3) * 2 ^ J ≤ (18 * (R * (P.n + 1))) * (2 * (R * (P.n + 1))) := Nat.mul_le_mul h6 hJ2
        _ = _ := by ring
    exact_mod_cast h5
  set M := max N (SimpleSolver.solveFuel P.n P.pairs.length R) with hMdef
  obtain ⟨s1, s2, ps, e1, e2, I, hlen⟩ := SimpleSolver.solve_edges (fuel := M) rep0 wf cv cap.within cap.lo sp' cap.R_nonneg cap.range cap.nodes (le_max_right _ _)
  have hol : (exactOmegas P).length = P.pairs.length := by simp [exactOmegas]
  refine ⟨r, returns_of_eval M ?_ fun _ _ h => SimpleSolver.solve_le h _ _ _, h2, h3⟩
  refine (SimpleSolver.solve_sim hb (n := P.n) (Rc := R) (J := J) (exact_musSim rep hv') (exact_omSim rep hv') ?_ ?_ hR1 hJ1 hXP ?_ ?_ r (h4 M (le_max_left _ _))).1
  · intro o ho
    obtain ⟨p, hp, rfl⟩ := List.mem_map.1 ho
    exact ⟨wf.i_pos p hp, wf.j_pos p hp⟩
  · rw [hol, hC]; linarith
  · have := cap.range; omega
  · intro t1 t2 g1 g2
    rw [e1] at g1
    cases g1
    rw [e2] at g2
    cases g2
    refine ⟨I.u_le, I.v_le, I.ne, I.nonneg, fun a ha => abs_le.2 (I.cost a ha), ?_⟩
    have h7 := I.len
    have h8 := cap.edges
    rw [hlen] at h7
    push_cast at h7
    rw [show (4 : Int) * (2 * R + 1) * ((P.n : Int) + P.pairs.length) = 2 * (2 * (2 * R + 1) * ((P.n : Int) + P.pairs.length)) by ring] at h8
    omega

/-- The example meets the hypotheses of C51. -/
example : ∃ r : Option ℚ, Returns (fun fuel => SimpleSolver.solve (2 ^ 31 - 1) fuel exP.n exMusD exOmegasD) (r.map (Flt.ofRat binary64)) ∧
    (∀ v, r = some v ↔ IsOptimum exP v) ∧ (r = none ↔ ¬ Solvable exP) := by
  refine C51_simple_exact (j := 0) (G := 75) (R := 6) le_rfl (by decide) (by decide) (by decide) ex_repD ex_wf ex_cv (by norm_num) ex_simpleCapacity ex_spread
    (by norm_num) (ex_costs.mono ?_) (by norm_num [exP, binary64]) (by norm_num [exP, binary64])
  rintro v ⟨k, rfl, hk⟩
  exact ⟨⟨k, by simp⟩, by exact_mod_cast hk⟩

end AHO.Props
