import Verif.SpecDual
import Verif.Proof.FlowSteps
import Verif.Proof.Integral
import Mathlib.Data.Finset.Max
import Mathlib.Data.Int.Interval
/-!
# The dual problem

A flow which is conserved in all nodes gives a lower bound on the cost of all potentials. Potentials which satisfy complementary slackness up to
`c / N` are rounded in `N` ways (`Verif.Proof.Integral`); on the average the cost is not far above the bound.
-/

namespace AHO
open Spec
set_option linter.unusedSectionVars false

variable {K : Type} [Field K] [LinearOrder K] [IsStrictOrderedRing K]

namespace Flow
variable {n : Nat} {M : K} {R : Int} {arcs : List (Pair K)} {f : Nat → K}

theorem penalised_fin (M : K) (arcs : List (Pair K)) (π : Nat → Int) : penalised M arcs π =
    ∑ k : Fin arcs.length, penal M arcs[k].l arcs[k].u arcs[k].B (π arcs[k].i - π arcs[k].j) := by
  unfold penalised
  rw [← Fin.sum_univ_fun_getElem]
  rfl

/-- A conserved flow sees no difference of potentials. -/
theorem circ_pot (hi : ∀ p ∈ arcs, p.i ≤ n ∧ p.j ≤ n) (hc : ∀ v, v ≤ n → outflow arcs f v = 0) (π : Nat → Int) :
    ∑ k : Fin arcs.length, f k * ((π arcs[k].i - π arcs[k].j : Int) : K) = 0 := by
  have h : ∑ v ∈ Finset.range (n + 1), outflow arcs f v * (π v : K) = 0 :=
    Finset.sum_eq_zero fun v hv => by rw [hc v (by have := Finset.mem_range.1 hv; omega), zero_mul]
  rw [← h]
  unfold outflow
  simp only [Finset.sum_mul]
  rw [Finset.sum_comm]
  refine Finset.sum_congr rfl fun k _ => ?_
  have := hi _ (List.getElem_mem k.2)
  simp only [sub_mul, ite_mul, zero_mul, Finset.sum_sub_distrib, Finset.sum_ite_eq, Finset.mem_range]
  have h1 : (arcs[k]).i < n + 1 := Nat.lt_succ_of_le this.1
  have h2 : (arcs[k]).j < n + 1 := Nat.lt_succ_of_le this.2
  rw [if_pos h1, if_pos h2]
  push_cast
  ring

/-- weak duality -/
theorem dual_le (hi : ∀ p ∈ arcs, p.i ≤ n ∧ p.j ≤ n) (hle : ∀ p ∈ arcs, p.l ≤ p.u) (hf : DualFeasible n M arcs f) {d : K}
    (hd : DualValue arcs f d) (h π : Nat → Int) : d + ∑ k : Fin arcs.length, f k * (h k : K) ≤ penalisedAt M arcs h π := by
  obtain ⟨m, h1, rfl⟩ := hd
  have h0 := circ_pot hi hf.conserved π
  rw [← add_zero (_ + _), ← h0, ← Finset.sum_add_distrib, ← Finset.sum_add_distrib]
  refine Finset.sum_le_sum fun k _ => ?_
  obtain ⟨a, b⟩ := abs_le.1 (hf.bound k k.2)
  have := penal_ge (hle _ (List.getElem_mem k.2)) (M := M) (g := arcs[k].B) (f := f k) (m := m k) a b
    (fun y y1 y2 => (h1 k k.2).2 ⟨y, y1, y2, rfl⟩) (π arcs[k].i - π arcs[k].j + h k)
  push_cast at this ⊢
  simp only [Fin.getElem_fin] at this ⊢
  linarith

theorem penalisedAt_zero (M : K) (arcs : List (Pair K)) (π : Nat → Int) : penalisedAt M arcs (fun _ => 0) π = penalised M arcs π := by
  rw [penalised_fin]
  simp [penalisedAt]

theorem dual_le' (hi : ∀ p ∈ arcs, p.i ≤ n ∧ p.j ≤ n) (hle : ∀ p ∈ arcs, p.l ≤ p.u) (hf : DualFeasible n M arcs f) {d : K}
    (hd : DualValue arcs f d) (π : Nat → Int) : d ≤ penalised M arcs π := by
  have := dual_le hi hle hf hd (fun _ => 0) π
  rw [penalisedAt_zero] at this
  simpa using this

theorem exists_dual (hle : ∀ p ∈ arcs, p.l ≤ p.u) (f : Nat → K) : ∃ d, DualValue arcs f d := by
  have : ∀ k, ∃ m : K, ∀ hk : k < arcs.length,
      IsLeast {w | ∃ x : Int, arcs[k].l ≤ x ∧ x ≤ arcs[k].u ∧ w = arcs[k].B x - f k * (x : K)} m := by
    intro k
    by_cases hk : k < arcs.length
    · have h := hle _ (List.getElem_mem hk)
      obtain ⟨x, hx, hmin⟩ := Finset.exists_min_image (Finset.Icc arcs[k].l arcs[k].u) (fun x => arcs[k].B x - f k * (x : K))
        ⟨_, Finset.mem_Icc.2 ⟨le_rfl, h⟩⟩
      rw [Finset.mem_Icc] at hx
      refine ⟨arcs[k].B x - f k * (x : K), fun _ => ⟨⟨x, hx.1, hx.2, rfl⟩, ?_⟩⟩
      rintro _ ⟨y, y1, y2, rfl⟩
      exact hmin y (Finset.mem_Icc.2 ⟨y1, y2⟩)
    · exact ⟨0, fun h => absurd h hk⟩
  choose m hm using this
  exact ⟨_, m, hm, rfl⟩

/-! ### The cost on a grid -/

/-- `N` times the interpolated function, at `z / N` -/
def onGrid (N : Int) (h : Int → K) (z : Int) : K := N * h (z / N) + (z % N : Int) * (h (z / N + 1) - h (z / N))

theorem onGrid_step {N : Int} (hN : 0 < N) (h : Int → K) (z : Int) :
    onGrid N h (z + 1) - onGrid N h z = h (z / N + 1) - h (z / N) := by
  have e := Int.mul_ediv_add_emod z N
  have l := Int.emod_nonneg z hN.ne'
  have u := Int.emod_lt_of_pos z hN
  by_cases hlt : z % N + 1 < N
  · have h1 : (z + 1) / N = z / N := by
      rw [show z + 1 = (z % N + 1) + N * (z / N) by omega, Int.add_mul_ediv_left _ _ hN.ne', Int.ediv_eq_zero_of_lt (by omega) hlt]
      omega
    have h2 : (z + 1) % N = z % N + 1 := by
      rw [show z + 1 = (z % N + 1) + N * (z / N) by omega, Int.add_mul_emod_self_left, Int.emod_eq_of_lt (by omega) hlt]
    unfold onGrid
    rw [h1, h2]
    push_cast
    ring
  · have hr : z % N = N - 1 := by omega
    have h1 : (z + 1) / N = z / N + 1 := by
      rw [show z + 1 = 0 + N * (z / N + 1) by rw [mul_add]; omega, Int.add_mul_ediv_left _ _ hN.ne']
      simp
    have h2 : (z + 1) % N = 0 := by
      rw [show z + 1 = 0 + N * (z / N + 1) by rw [mul_add]; omega, Int.add_mul_emod_self_left]
      simp
    unfold onGrid
    rw [h1, h2, hr]
    push_cast
    ring

theorem onGrid_mul {N : Int} (hN : 0 < N) (h : Int → K) (p : Int) : onGrid N h (p * N) = N * h p := by
  unfold onGrid
  rw [Int.mul_ediv_cancel _ hN.ne', Int.mul_emod_left]
  simp

/-- The slopes are not positive left of `(d - c) / N`, not negative right of `(d + c) / N`, and bounded. -/
theorem onGrid_le {N c : Int} (hN : 0 < N) (hc : 0 ≤ c) {h : Int → K} {S : K} (hS : 0 ≤ S) (d : Int)
    (h1 : ∀ x, x * N < d - c → h (x + 1) - h x ≤ 0) (h2 : ∀ x, d + c < (x + 1) * N → 0 ≤ h (x + 1) - h x)
    (hb : ∀ x, |h (x + 1) - h x| ≤ S) (p : Int) : onGrid N h d ≤ N * h p + S * c := by
  have fl : ∀ z : Int, z / N * N ≤ z ∧ z < (z / N + 1) * N := fun z => by
    have e := Int.mul_ediv_add_emod z N
    have l := Int.emod_nonneg z hN.ne'
    have u := Int.emod_lt_of_pos z hN
    rw [add_mul, mul_comm (z / N) N]
    omega
  rcases le_total (p * N) d with hp | hp
  · have key : ∀ k : Nat, onGrid N h (p * N + k) ≤ N * h p + S * ((max 0 (p * N + k - (d - c)) : Int) : K) := by
      intro k
      induction k with
      | zero =>
        have : (0 : K) ≤ ((max 0 (p * N + (0 : Nat) - (d - c)) : Int) : K) := by exact_mod_cast le_max_left _ _
        have e : p * N + ((0 : Nat) : Int) = p * N := by simp
        rw [e] at this ⊢
        rw [onGrid_mul hN]
        have := mul_nonneg hS this
        linarith
      | succ k ih =>
        have st := onGrid_step hN h (p * N + k)
        have e : p * N + ((k + 1 : Nat) : Int) = p * N + k + 1 := by push_cast; ring
        rw [e]
        by_cases hz : (p * N + k) / N * N < d - c
        · have := h1 _ hz
          have hm : ((max 0 (p * N + k - (d - c)) : Int) : K) ≤ ((max 0 (p * N + k + 1 - (d - c)) : Int) : K) := by
            exact_mod_cast (by omega : max 0 (p * N + k - (d - c)) ≤ max 0 (p * N + k + 1 - (d - c)))
          have := mul_le_mul_of_nonneg_left hm hS
          linarith
        · have := (abs_le.1 (hb ((p * N + k) / N))).2
          have hz' := (fl (p * N + k)).1
          have hm : max 0 (p * N + k + 1 - (d - c)) = max 0 (p * N + k - (d - c)) + 1 := by omega
          rw [hm]
          push_cast at ih ⊢
          rw [mul_add, mul_one]
          linarith
    have := key (d - p * N).toNat
    rw [show p * N + ((d - p * N).toNat : Int) = d by omega, show max 0 (d - (d - c)) = c by omega] at this
    exact this
  · have key : ∀ k : Nat, onGrid N h (p * N - k) ≤ N * h p + S * ((max 0 (d + c - (p * N - k)) : Int) : K) := by
      intro k
      induction k with
      | zero =>
        have : (0 : K) ≤ ((max 0 (d + c - (p * N - (0 : Nat))) : Int) : K) := by exact_mod_cast le_max_left _ _
        have e : p * N - ((0 : Nat) : Int) = p * N := by simp
        rw [e] at this ⊢
        rw [onGrid_mul hN]
        have := mul_nonneg hS this
        linarith
      | succ k ih =>
        have st := onGrid_step hN h (p * N - k - 1)
        rw [sub_add_cancel] at st
        have e : p * N - ((k + 1 : Nat) : Int) = p * N - k - 1 := by push_cast; ring
        rw [e]
        by_cases hz : d + c < ((p * N - k - 1) / N + 1) * N
        · have := h2 _ hz
          have hm : ((max 0 (d + c - (p * N - k)) : Int) : K) ≤ ((max 0 (d + c - (p * N - k - 1)) : Int) : K) := by
            exact_mod_cast (by omega : max 0 (d + c - (p * N - k)) ≤ max 0 (d + c - (p * N - k - 1)))
          have := mul_le_mul_of_nonneg_left hm hS
          linarith
        · have := (abs_le.1 (hb ((p * N - k - 1) / N))).1
          have hz' := (fl (p * N - k - 1)).2
          have hm : max 0 (d + c - (p * N - k - 1)) = max 0 (d + c - (p * N - k)) + 1 := by omega
          rw [hm]
          push_cast at ih ⊢
          rw [mul_add, mul_one]
          linarith
    have := key (p * N - d).toNat
    rw [show p * N - ((p * N - d).toNat : Int) = d by omega, show max 0 (d + c - d) = c by omega] at this
    exact this

theorem penal_slope_abs (hM : 0 ≤ M) {p : Pair K} (hp : ArcOK n M R p) (x : Int) :
    |penal M p.l p.u p.B (x + 1) - penal M p.l p.u p.B x| ≤ M := by
  have h : EdgeOK 1 M p.l p.u p.B := ⟨by norm_num, hp.le, hp.conv, hp.bd, hM⟩
  rw [penal_slope h]
  refine abs_le.2 ⟨?_, lft_le h _⟩
  have := lft_rev_ge h (show (x + 1) * 1 - 1 < (x + 1) * 1 by omega)
  have := lft_le h.rev (-((x + 1) * 1 - 1))
  linarith

/-- Potentials and a flow with complementary slackness up to `c / N`: some rounding of the potentials costs little more than the dual value. -/
theorem dual_gap (hM : 0 ≤ M) (good : ∀ p ∈ arcs, ArcOK n M R p) (hf : DualFeasible n M arcs f) {d : K} (hd : DualValue arcs f d)
    {N : Nat} (hN : 0 < N) {c : Int} (hc : 0 ≤ c) {pot : Nat → Int}
    (ho : ∀ (k : Nat) (hk : k < arcs.length), EpsOptimal M N c arcs[k] (pot arcs[k].i - pot arcs[k].j) (f k)) :
    ∃ t < N, (N : K) * penalised M arcs (fun i => (pot i + t) / N) ≤ N * d + 2 * (arcs.length * M * c) := by
  obtain ⟨m, h1, rfl⟩ := hd
  have hNi : (0 : Int) < N := by exact_mod_cast hN
  have hi : ∀ p ∈ arcs, p.i ≤ n ∧ p.j ≤ n := fun p hp => ⟨(good p hp).i_le, (good p hp).j_le⟩
  let h : Nat → Int → K := fun k x => if hk : k < arcs.length then penal M arcs[k].l arcs[k].u arcs[k].B x - f k * (x : K) else 0
  have hh : ∀ (k : Fin arcs.length) x, h k x = penal M arcs[k].l arcs[k].u arcs[k].B x - f k * (x : K) := fun k x => by
    simp only [h]; rw [dif_pos k.2]; rfl
  -- every arc
  have arc : ∀ k : Fin arcs.length, ∑ t ∈ Finset.range N, h k ((pot arcs[k].i + t) / N - (pot arcs[k].j + t) / N) ≤ N * m k + 2 * (M * c) := by
    intro k
    have hk := good _ (List.getElem_mem k.2)
    have e : ∀ t : Nat, pot arcs[k].i + (t : Int) = pot arcs[k].j + (pot arcs[k].i - pot arcs[k].j) + t := fun t => by ring
    simp only [e]
    rw [sum_interp hN, interp_frac hN]
    obtain ⟨p, p1, p2, p3⟩ := (h1 k k.2).1
    have hp : h k p = m k := by
      have : penal M arcs[k].l arcs[k].u arcs[k].B p = arcs[k].B p := by
        unfold penal
        rw [if_neg (by simp only [Fin.getElem_fin]; omega), if_neg (by simp only [Fin.getElem_fin]; omega)]
      rw [hh, this, p3]
      rfl
    obtain ⟨f1, f2⟩ := abs_le.1 (hf.bound k k.2)
    have := onGrid_le (h := h k) (S := 2 * M) (c := c) hNi hc (by linarith) (pot arcs[k].i - pot arcs[k].j)
      (fun x hx => by
        have := (ho k k.2).1 x hx
        rw [hh, hh]; push_cast
        simp only [Fin.getElem_fin]
        linarith)
      (fun x hx => by
        have := (ho k k.2).2 x hx
        rw [hh, hh]; push_cast
        simp only [Fin.getElem_fin]
        linarith)
      (fun x => by
        obtain ⟨g1, g2⟩ := abs_le.1 (penal_slope_abs hM hk x)
        rw [hh, hh]; push_cast
        simp only [Fin.getElem_fin]
        refine abs_le.2 ⟨by linarith, by linarith⟩) p
    rw [hp] at this
    unfold onGrid at this
    push_cast at this ⊢
    linarith
  -- all arcs
  have tot : ∑ t ∈ Finset.range N, penalised M arcs (fun i => (pot i + t) / N) ≤ N * (∑ k : Fin arcs.length, m k) + 2 * (arcs.length * M * c) := by
    have : ∀ t ∈ Finset.range N, penalised M arcs (fun i => (pot i + t) / N) =
        ∑ k : Fin arcs.length, h k ((pot arcs[k].i + t) / N - (pot arcs[k].j + t) / N) := by
      intro t _
      have h0 := circ_pot hi hf.conserved (fun i => (pot i + t) / N)
      rw [penalised_fin, ← sub_zero (∑ k : Fin arcs.length, _), ← h0, ← Finset.sum_sub_distrib]
      exact Finset.sum_congr rfl fun k _ => (hh k _).symm
    rw [Finset.sum_congr rfl this, Finset.sum_comm]
    refine (Finset.sum_le_sum fun k _ => arc k).trans (le_of_eq ?_)
    rw [Finset.sum_add_distrib, ← Finset.mul_sum]
    simp only [Finset.sum_const, Finset.card_univ, Fintype.card_fin, nsmul_eq_mul]
    ring
  by_contra hno
  push Not at hno
  have hlt : ∑ t ∈ Finset.range N, (N * (∑ k : Fin arcs.length, m k) + 2 * (arcs.length * M * c)) <
      ∑ t ∈ Finset.range N, (N : K) * penalised M arcs (fun i => (pot i + t) / N) :=
    Finset.sum_lt_sum_of_nonempty ⟨0, Finset.mem_range.2 hN⟩ fun t ht => hno t (Finset.mem_range.1 ht)
  rw [← Finset.mul_sum, Finset.sum_const, Finset.card_range, nsmul_eq_mul] at hlt
  have := lt_of_mul_lt_mul_left hlt (by positivity)
  linarith

/-- The last phase: some rounding of the potentials costs exactly the dual value. -/
theorem dual_opt (hM : 0 ≤ M) (good : ∀ p ∈ arcs, ArcOK n M R p) (hf : DualFeasible n M arcs f) {d : K} (hd : DualValue arcs f d)
    {pot : Nat → Int}
    (ho : ∀ (k : Nat) (hk : k < arcs.length), EpsOptimal M (2 * ((n : Int) + 1)) 1 arcs[k] (pot arcs[k].i - pot arcs[k].j) (f k)) :
    ∃ t, t < 2 * (n + 1) ∧ penalised M arcs (fun i => (pot i + t) / (2 * ((n : Int) + 1))) = d := by
  have hi : ∀ p ∈ arcs, p.i ≤ n ∧ p.j ≤ n := fun p hp => ⟨(good p hp).i_le, (good p hp).j_le⟩
  have hle : ∀ p ∈ arcs, p.l ≤ p.u := fun p hp => (good p hp).le
  obtain ⟨t, t1, t2⟩ := exists_round' n pot
  refine ⟨t, t1, le_antisymm ?_ (dual_le' hi hle hf hd _)⟩
  obtain ⟨m, h1, rfl⟩ := hd
  have h0 := circ_pot hi hf.conserved (fun i => (pot i + t) / (2 * ((n : Int) + 1)))
  rw [penalised_fin, ← sub_zero (∑ k : Fin arcs.length, _), ← h0, ← Finset.sum_sub_distrib]
  refine Finset.sum_le_sum fun k _ => ?_
  have hk := good _ (List.getElem_mem k.2)
  have hed : EdgeOK 1 M arcs[k].l arcs[k].u arcs[k].B := ⟨by norm_num, hk.le, hk.conv, hk.bd, hM⟩
  obtain ⟨p, p1, p2, p3⟩ := (h1 k k.2).1
  have hNp : 0 < 2 * ((n : Int) + 1) := by omega
  have r1 := t2 arcs[k].i arcs[k].j hk.i_le hk.j_le
  have r2 := t2 arcs[k].j arcs[k].i hk.j_le hk.i_le
  have b1 := cdiv_bounds (pot arcs[k].i - pot arcs[k].j - 1) _ hNp
  have b2 := cdiv_bounds (pot arcs[k].j - pot arcs[k].i - 1) _ hNp
  rw [Int.mul_sub, mul_one] at b1 b2
  have hpen : penal M arcs[k].l arcs[k].u arcs[k].B p = arcs[k].B p := by
    unfold penal
    rw [if_neg (by simp only [Fin.getElem_fin]; omega), if_neg (by simp only [Fin.getElem_fin]; omega)]
  have key : ∀ z w : Int, z - w ≤ cdiv (pot arcs[k].i - pot arcs[k].j - 1) (2 * ((n : Int) + 1)) →
      w - z ≤ cdiv (pot arcs[k].j - pot arcs[k].i - 1) (2 * ((n : Int) + 1)) →
      penal M arcs[k].l arcs[k].u arcs[k].B (z - w) - f k * ((z - w : Int) : K) ≤ m k := by
    intro z w r1 r2
    have q1 := Int.mul_le_mul_of_nonneg_left r1 hNp.le
    have q2 := Int.mul_le_mul_of_nonneg_left r2 hNp.le
    have s1 := (ho k k.2).1 (z - w - 1) (by
      simp only [Fin.getElem_fin] at *
      have : (z - w - 1) * (2 * ((n : Int) + 1)) = 2 * ((n : Int) + 1) * (z - w) - 2 * ((n : Int) + 1) := by ring
      omega)
    have s2 := (ho k k.2).2 (z - w) (by
      simp only [Fin.getElem_fin] at *
      have : (z - w + 1) * (2 * ((n : Int) + 1)) = 2 * ((n : Int) + 1) - 2 * ((n : Int) + 1) * (w - z) := by ring
      omega)
    rw [sub_add_cancel] at s1
    have := penal_min hed (f := f k) s1 s2 p
    rw [hpen] at this
    rw [p3]
    exact this
  exact key _ _ r1 r2

end Flow
end AHO
