import Verif.Proof.Integral
import Verif.Proof.Relations
/-!
# Assignments between two assignments
-/

set_option linter.unusedSectionVars false

namespace AHO
open Spec ProblemSolver

variable {K : Type} [Field K] [LinearOrder K] [IsStrictOrderedRing K] {P Q : Problem K}

/-- a convex cost lies above each of its slopes -/
theorem support {g : Int → K} {l u q : Int} (h : Convex g l u) (hl : l ≤ q) (hu : q + 1 ≤ u) {z : Int} (h1 : l ≤ z) (h2 : z ≤ u) :
    g q + ((z - q : Int) : K) * (g (q + 1) - g q) ≤ g z := by
  rcases le_total q z with hz | hz
  · obtain ⟨k, rfl⟩ : ∃ k : Nat, z = q + k := ⟨(z - q).toNat, by omega⟩
    clear h1 hz
    induction k with
    | zero => simp
    | succ k ih =>
      have a := ih (by push_cast at h2; omega)
      have b := slope_le h hl k (by push_cast at h2; omega)
      push_cast at a ⊢
      rw [show q + ((k : Int) + 1) = q + k + 1 by ring]
      linarith
  · obtain ⟨k, rfl⟩ : ∃ k : Nat, z = q - k := ⟨(q - z).toNat, by omega⟩
    clear h2 hz
    induction k with
    | zero => simp
    | succ k ih =>
      push_cast at h1
      have a := ih (by omega)
      have b := slope_le h (x := q - (k + 1)) (by omega) (k + 1) (by push_cast; omega)
      push_cast at a b ⊢
      rw [show q - ((k : Int) + 1) + (k + 1) + 1 = q + 1 by ring, show q - ((k : Int) + 1) + (k + 1) = q by ring,
        show q - ((k : Int) + 1) + 1 = q - k by ring] at b
      linarith

/-- The continued cost at a weighted mean is at most the weighted mean of the costs. -/
theorem interp_mean {g : Int → K} {l u a b : Int} (h : Convex g l u) (ha : l ≤ a) (ha' : a ≤ u) (hb : l ≤ b) (hb' : b ≤ u) {c d : Nat} (hc : 0 < c)
    (hd : 0 < d) : ((c + d : Nat) : K) * interp g (((c * a + d * b : Int) : ℚ) / (c + d : Nat)) ≤ c * g a + d * g b := by
  have hN : 0 < c + d := by omega
  rw [interp_frac hN]
  rcases eq_or_ne a b with rfl | hab
  · have e : (c * a + d * a : Int) = a * (c + d : Nat) := by push_cast; ring
    rw [e, Int.mul_emod_left, Int.mul_ediv_cancel _ (by exact_mod_cast hN.ne')]
    push_cast
    linarith
  · set N : Int := ((c + d : Nat) : Int) with hNd
    have e := Int.mul_ediv_add_emod (c * a + d * b) N
    have r0 := Int.emod_nonneg (c * a + d * b) (show N ≠ 0 by omega)
    have r1 := Int.emod_lt_of_pos (c * a + d * b) (show 0 < N by omega)
    generalize (c * a + d * b : Int) / N = q at *
    generalize (c * a + d * b : Int) % N = r at *
    have hc' : (0 : Int) < c := by exact_mod_cast hc
    have hd' : (0 : Int) < d := by exact_mod_cast hd
    have eN : N = c + d := by rw [hNd]; push_cast; ring
    have lq : l ≤ q := by
      by_contra hlt
      have h1 : N * q ≤ N * (l - 1) := mul_le_mul_of_nonneg_left (by omega) (by omega)
      have h2 : (c : Int) * l ≤ c * a := mul_le_mul_of_nonneg_left ha (by omega)
      have h3 : (d : Int) * l ≤ d * b := mul_le_mul_of_nonneg_left hb (by omega)
      have h4 : N * (l - 1) = c * l + d * l - N := by rw [eN]; ring
      linarith
    have uq : q + 1 ≤ u := by
      by_contra hlt
      have h1 : N * u ≤ N * q := mul_le_mul_of_nonneg_left (by omega) (by omega)
      have h3 : N * u = c * u + d * u := by rw [eN]; ring
      rcases lt_or_gt_of_ne hab with h2 | h2
      · have : (c : Int) * (a + 1) ≤ c * u := mul_le_mul_of_nonneg_left (by omega) (by omega)
        have : (d : Int) * b ≤ d * u := mul_le_mul_of_nonneg_left (by omega) (by omega)
        linarith
      · have : (d : Int) * (b + 1) ≤ d * u := mul_le_mul_of_nonneg_left (by omega) (by omega)
        have : (c : Int) * a ≤ c * u := mul_le_mul_of_nonneg_left (by omega) (by omega)
        linarith
    have s1 := mul_le_mul_of_nonneg_left (support h lq uq ha ha') (show (0 : K) ≤ c by positivity)
    have s2 := mul_le_mul_of_nonneg_left (support h lq uq hb hb') (show (0 : K) ≤ d by positivity)
    have e' : (r : K) = c * a + d * b - (c + d) * q := by
      have : r = c * a + d * b - N * q := by omega
      rw [this, eN]
      push_cast
      ring
    rw [e']
    push_cast at s1 s2 ⊢
    linarith

/-- A weighted mean of two assignments is a fractional assignment, and costs at most the mean. -/
theorem mean_relaxed (cv : ConvexCosts P) {μ₁ ω₁ μ₂ ω₂ : Nat → Int} (f₁ : Feasible P μ₁ ω₁) (f₂ : Feasible P μ₂ ω₂) {c d : Nat} (hc : 0 < c) (hd : 0 < d) :
    RelaxedFeasible P (fun i => ((c * μ₁ i + d * μ₂ i : Int) : ℚ) / (c + d : Nat)) (fun k => ((c * ω₁ k + d * ω₂ k : Int) : ℚ) / (c + d : Nat)) ∧
    ((c + d : Nat) : K) * relaxedCost P (fun i => ((c * μ₁ i + d * μ₂ i : Int) : ℚ) / (c + d : Nat)) (fun k => ((c * ω₁ k + d * ω₂ k : Int) : ℚ) / (c + d : Nat)) ≤
      c * cost P μ₁ ω₁ + d * cost P μ₂ ω₂ := by
  have hN : (0 : ℚ) < ((c + d : Nat) : ℚ) := by exact_mod_cast (show 0 < c + d by omega)
  have hc' : (0 : Int) ≤ c := by omega
  have hd' : (0 : Int) ≤ d := by omega
  have low : ∀ {l a b : Int}, l ≤ a → l ≤ b → (l : ℚ) ≤ ((c * a + d * b : Int) : ℚ) / (c + d : Nat) := by
    intro l a b ha hb
    rw [le_div_iff₀ hN]
    have : l * (c + d : Nat) ≤ c * a + d * b := by
      have := mul_le_mul_of_nonneg_left ha hc'
      have := mul_le_mul_of_nonneg_left hb hd'
      push_cast
      nlinarith
    exact_mod_cast this
  have upp : ∀ {u a b : Int}, a ≤ u → b ≤ u → ((c * a + d * b : Int) : ℚ) / (c + d : Nat) ≤ u := by
    intro u a b ha hb
    rw [div_le_iff₀ hN]
    have : c * a + d * b ≤ u * (c + d : Nat) := by
      have := mul_le_mul_of_nonneg_left ha hc'
      have := mul_le_mul_of_nonneg_left hb hd'
      push_cast
      nlinarith
    exact_mod_cast this
  refine ⟨⟨fun i h1 h2 => ?_, fun k hk => ?_⟩, ?_⟩
  · obtain ⟨a, b⟩ := f₁.1 i h1 h2
    obtain ⟨a', b'⟩ := f₂.1 i h1 h2
    exact ⟨low a a', upp b b'⟩
  · obtain ⟨a, b, e⟩ := f₁.2 k hk
    obtain ⟨a', b', e'⟩ := f₂.2 k hk
    refine ⟨low a a', upp b b', ?_⟩
    rw [← sub_div]
    refine div_le_div_of_nonneg_right ?_ hN.le
    have : (c * μ₁ P.pairs[k].i + d * μ₂ P.pairs[k].i) - (c * μ₁ P.pairs[k].j + d * μ₂ P.pairs[k].j) ≤ c * ω₁ k + d * ω₂ k := by
      have := mul_le_mul_of_nonneg_left e hc'
      have := mul_le_mul_of_nonneg_left e' hd'
      nlinarith
    exact_mod_cast this
  · unfold relaxedCost cost
    have s1 : ((c + d : Nat) : K) * ∑ i ∈ Finset.Icc 1 P.n, interp (P.F i) (((c * μ₁ i + d * μ₂ i : Int) : ℚ) / (c + d : Nat)) ≤
        c * ∑ i ∈ Finset.Icc 1 P.n, P.F i (μ₁ i) + d * ∑ i ∈ Finset.Icc 1 P.n, P.F i (μ₂ i) := by
      rw [Finset.mul_sum, Finset.mul_sum, Finset.mul_sum, ← Finset.sum_add_distrib]
      refine Finset.sum_le_sum fun i hi => ?_
      obtain ⟨h1, h2⟩ := Finset.mem_Icc.1 hi
      obtain ⟨a, b⟩ := f₁.1 i h1 h2
      obtain ⟨a', b'⟩ := f₂.1 i h1 h2
      exact interp_mean (cv.nodes i h1 h2) a b a' b' hc hd
    have s2 : ((c + d : Nat) : K) * ∑ k : Fin P.pairs.length, interp P.pairs[k].B (((c * ω₁ k + d * ω₂ k : Int) : ℚ) / (c + d : Nat)) ≤
        c * ∑ k : Fin P.pairs.length, P.pairs[k].B (ω₁ k) + d * ∑ k : Fin P.pairs.length, P.pairs[k].B (ω₂ k) := by
      rw [Finset.mul_sum, Finset.mul_sum, Finset.mul_sum, ← Finset.sum_add_distrib]
      refine Finset.sum_le_sum fun k _ => ?_
      obtain ⟨a, b, -⟩ := f₁.2 k k.2
      obtain ⟨a', b', -⟩ := f₂.2 k k.2
      exact interp_mean (cv.pairs _ (List.getElem_mem k.2)) a b a' b' hc hd
    linarith

/-! ### The local test -/

/-- a bound for finitely many integers -/
theorem exists_bound (f : Nat → Int) (m : Nat) : ∃ B : Nat, ∀ i, i ≤ m → |f i| ≤ B := by
  induction m with
  | zero => exact ⟨(f 0).natAbs, fun i hi => by rw [Nat.le_zero.1 hi, Int.abs_eq_natAbs]⟩
  | succ m ih =>
    obtain ⟨B, h⟩ := ih
    refine ⟨B + (f (m + 1)).natAbs, fun i hi => ?_⟩
    rcases Nat.lt_or_ge m i with hm | hm
    · obtain rfl : i = m + 1 := by omega
      rw [Int.abs_eq_natAbs]; omega
    · have := h i hm; push_cast; linarith [abs_nonneg (f (m + 1)), Int.natCast_natAbs (f (m + 1))]

/-- If there is a cheaper assignment, there is one among those where some variables are changed by 1, all in the same direction. -/
theorem descent (wf : WellFormed P) (cv : ConvexCosts P) {μ ω μ' ω' : Nat → Int} (f : Feasible P μ ω) (f' : Feasible P μ' ω')
    (h : cost P μ' ω' < cost P μ ω) : ∃ (S : Finset Nat) (d : Int) (ω'' : Nat → Int), (d = 1 ∨ d = -1) ∧ Feasible P (move μ S d) ω'' ∧
      cost P (move μ S d) ω'' < cost P μ ω := by
  obtain ⟨B, hB⟩ := exists_bound (fun i => μ' i - μ i) P.n
  obtain ⟨fr, hr⟩ := mean_relaxed cv f f' (c := 2 * B + 1) (d := 1) (by omega) (by omega)
  obtain ⟨t, ht, ω'', fe, hc⟩ := round_grid wf fr (N := 2 * B + 1 + 1) (by omega)
    (A := fun i => ((2 * B + 1 : Nat) : Int) * μ i + (1 : Nat) * μ' i) (W := fun k => ((2 * B + 1 : Nat) : Int) * ω k + (1 : Nat) * ω' k)
    (fun i _ => rfl) (fun k _ => rfl)
  have lt : cost P (fun i => (((2 * B + 1 : Nat) : Int) * μ i + (1 : Nat) * μ' i + t) / (2 * B + 1 + 1 : Nat)) ω'' < cost P μ ω := by
    refine hc.trans_lt ?_
    have h0 : (0 : K) < ((2 * B + 1 + 1 : Nat) : K) := by exact_mod_cast (show 0 < 2 * B + 1 + 1 by omega)
    refine lt_of_mul_lt_mul_left (hr.trans_lt ?_) h0.le
    push_cast
    linarith
  have val : ∀ i, (((2 * B + 1 : Nat) : Int) * μ i + (1 : Nat) * μ' i + t) / (2 * B + 1 + 1 : Nat) = μ i + (μ' i - μ i + t) / (2 * B + 1 + 1 : Nat) := by
    intro i
    rw [show ((2 * B + 1 : Nat) : Int) * μ i + (1 : Nat) * μ' i + t = (μ' i - μ i + t) + μ i * (2 * B + 1 + 1 : Nat) by push_cast; ring,
      Int.add_mul_ediv_right _ _ (by omega)]
    ring
  have key : ∃ (S : Finset Nat) (d : Int), (d = 1 ∨ d = -1) ∧ ∀ i, i ≤ P.n →
      (((2 * B + 1 : Nat) : Int) * μ i + (1 : Nat) * μ' i + t) / (2 * B + 1 + 1 : Nat) = move μ S d i := by
    rcases Nat.lt_or_ge t (B + 1) with h1 | h1
    · refine ⟨(Finset.range (P.n + 1)).filter fun i => μ' i - μ i + t < 0, -1, .inr rfl, fun i hi => ?_⟩
      have hb := abs_le.1 (hB i hi)
      rw [val, move]
      simp only [Finset.mem_filter, Finset.mem_range]
      split
      · next hs =>
        have : (μ' i - μ i + t) / ((2 * B + 1 + 1 : Nat) : Int) = -1 := by
          rw [show μ' i - μ i + t = (μ' i - μ i + t + (2 * B + 1 + 1 : Nat)) + (-1) * (2 * B + 1 + 1 : Nat) by ring, Int.add_mul_ediv_right _ _ (by omega),
            Int.ediv_eq_zero_of_lt (by push_cast; omega) (by omega)]
          rfl
        rw [this]
      · next hs =>
        rw [Int.ediv_eq_zero_of_lt (by omega) (by push_cast; omega), add_zero]
    · refine ⟨(Finset.range (P.n + 1)).filter fun i => ((2 * B + 1 + 1 : Nat) : Int) ≤ μ' i - μ i + t, 1, .inl rfl, fun i hi => ?_⟩
      have hb := abs_le.1 (hB i hi)
      rw [val, move]
      simp only [Finset.mem_filter, Finset.mem_range]
      split
      · next hs =>
        have : (μ' i - μ i + t) / ((2 * B + 1 + 1 : Nat) : Int) = 1 := by
          rw [show μ' i - μ i + t = (μ' i - μ i + t - (2 * B + 1 + 1 : Nat)) + 1 * (2 * B + 1 + 1 : Nat) by ring, Int.add_mul_ediv_right _ _ (by omega),
            Int.ediv_eq_zero_of_lt (by omega) (by push_cast; omega)]
          rfl
        rw [this]
      · next hs =>
        rw [Int.ediv_eq_zero_of_lt (by omega) (by push_cast at hs ⊢; omega), add_zero]
  obtain ⟨S, d, hd, hm⟩ := key
  refine ⟨S, d, ω'', hd, ⟨fun i h1 h2 => ?_, fun k hk => ?_⟩, ?_⟩
  · rw [← hm i h2]; exact fe.1 i h1 h2
  · have hp := List.getElem_mem hk
    rw [← hm _ (wf.i_le _ hp), ← hm _ (wf.j_le _ hp)]
    exact fe.2 k hk
  · have : cost P (move μ S d) ω'' = cost P (fun i => (((2 * B + 1 : Nat) : Int) * μ i + (1 : Nat) * μ' i + t) / (2 * B + 1 + 1 : Nat)) ω'' := by
      unfold cost
      congr 1
      exact Finset.sum_congr rfl fun i hi => congrArg (P.F i) (hm i (Finset.mem_Icc.1 hi).2).symm
    rw [this]
    exact lt

/-! ### Limits which do not bind -/

/-- the pairs of a problem with smaller ranges -/
theorem shrinks_pair (sh : Q.Shrinks P) {k : Nat} (hk : k < P.pairs.length) : ∃ hk' : k < Q.pairs.length,
    P.pairs[k].i = Q.pairs[k].i ∧ P.pairs[k].j = Q.pairs[k].j ∧ Q.pairs[k].l ≤ P.pairs[k].l ∧ P.pairs[k].u ≤ Q.pairs[k].u ∧ P.pairs[k].B = Q.pairs[k].B := by
  have hk' : k < Q.pairs.length := sh.pairs.length_eq ▸ hk
  exact ⟨hk', (List.forall₂_iff_get.1 sh.pairs).2 k hk' hk⟩

theorem shrinks_feasible (sh : Q.Shrinks P) {μ ω : Nat → Int} (f : Feasible P μ ω) : Feasible Q μ ω := by
  refine ⟨fun i h1 h2 => ?_, fun k hk => ?_⟩
  · have := f.1 i h1 (sh.n ▸ h2)
    have := sh.lo i h1 h2
    have := sh.hi i h1 h2
    omega
  · have hk' : k < P.pairs.length := sh.pairs.length_eq ▸ hk
    obtain ⟨_, e1, e2, e3, e4, -⟩ := shrinks_pair sh hk'
    have := f.2 k hk'
    rw [e1, e2] at this
    omega

theorem shrinks_cost (sh : Q.Shrinks P) (μ ω : Nat → Int) : cost P μ ω = cost Q μ ω := by
  unfold cost
  congr 1
  · rw [sh.n]
    exact Finset.sum_congr rfl fun i hi => by rw [sh.F i (Finset.mem_Icc.1 hi).1 (Finset.mem_Icc.1 hi).2]
  · refine Fintype.sum_equiv (finCongr sh.pairs.length_eq.symm) _ _ fun k => ?_
    obtain ⟨_, -, -, -, -, e⟩ := shrinks_pair sh k.2
    exact congrFun e _

theorem shrinks_relaxedCost (sh : Q.Shrinks P) (μ ω : Nat → ℚ) : relaxedCost P μ ω = relaxedCost Q μ ω := by
  unfold relaxedCost
  congr 1
  · rw [sh.n]
    exact Finset.sum_congr rfl fun i hi => by rw [sh.F i (Finset.mem_Icc.1 hi).1 (Finset.mem_Icc.1 hi).2]
  · refine Fintype.sum_equiv (finCongr sh.pairs.length_eq.symm) _ _ fun k => ?_
    obtain ⟨_, -, -, -, -, e⟩ := shrinks_pair sh k.2
    exact congrArg (interp · _) e

/-- Wider limits do not help if an optimal assignment is not at an end where the limits are widened. -/
theorem widen (sh : Q.Shrinks P) (wf : WellFormed P) (cv : ConvexCosts Q) {μ ω : Nat → Int} (f : Feasible P μ ω) (opt : IsOptimum P (cost P μ ω))
    (ne : NotAtEnds P Q μ ω) : IsOptimum Q (cost P μ ω) := by
  refine ⟨⟨μ, ω, shrinks_feasible sh f, (shrinks_cost sh μ ω).symm⟩, fun μ' ω' f' => ?_⟩
  by_contra hlt
  rw [not_le] at hlt
  obtain ⟨B₁, hB₁⟩ := exists_bound (fun i => μ' i - μ i) P.n
  obtain ⟨B₂, hB₂⟩ := exists_bound (fun i => ω' i - ω i) P.pairs.length
  set c := B₁ + B₂ + 1 with hc
  obtain ⟨fr, hr⟩ := mean_relaxed cv (shrinks_feasible sh f) f' (c := c) (d := 1) (by omega) (by omega)
  have hN : (0 : ℚ) < ((c + 1 : Nat) : ℚ) := by exact_mod_cast (show 0 < c + 1 by omega)
  have low : ∀ {l a b : Int}, l < a → |b - a| ≤ c → (l : ℚ) ≤ ((c * a + (1 : Nat) * b : Int) : ℚ) / (c + 1 : Nat) := by
    intro l a b h1 h2
    have := abs_le.1 h2
    rw [le_div_iff₀ hN]
    have : l * (c + 1 : Nat) ≤ c * a + (1 : Nat) * b := by push_cast; nlinarith
    exact_mod_cast this
  have upp : ∀ {u a b : Int}, a < u → |b - a| ≤ c → ((c * a + (1 : Nat) * b : Int) : ℚ) / (c + 1 : Nat) ≤ u := by
    intro l a b h1 h2
    have := abs_le.1 h2
    rw [div_le_iff₀ hN]
    have : c * a + (1 : Nat) * b ≤ l * (c + 1 : Nat) := by push_cast; nlinarith
    exact_mod_cast this
  have fp : RelaxedFeasible P (fun i => ((c * μ i + (1 : Nat) * μ' i : Int) : ℚ) / (c + 1 : Nat)) (fun k => ((c * ω k + (1 : Nat) * ω' k : Int) : ℚ) / (c + 1 : Nat)) := by
    refine ⟨fun i h1 h2 => ?_, fun k hk => ?_⟩
    · obtain ⟨n1, n2⟩ := ne.1 i h1 h2
      have hb : |μ' i - μ i| ≤ c := (hB₁ i h2).trans (by omega)
      obtain ⟨r1, r2⟩ := fr.1 i h1 (sh.n ▸ h2)
      exact ⟨n1.elim (fun e => e ▸ r1) fun e => low e hb, n2.elim (fun e => e ▸ r2) fun e => upp e hb⟩
    · obtain ⟨hk', e1, e2, -⟩ := shrinks_pair sh hk
      obtain ⟨n1, n2⟩ := ne.2 k _ _ (List.getElem?_eq_getElem hk) (List.getElem?_eq_getElem hk')
      have hb : |ω' k - ω k| ≤ c := (hB₂ k hk.le).trans (by omega)
      obtain ⟨r1, r2, r3⟩ := fr.2 k hk'
      rw [← e1, ← e2] at r3
      exact ⟨n1.elim (fun e => e ▸ r1) fun e => low e hb, n2.elim (fun e => e ▸ r2) fun e => upp e hb, r3⟩
  obtain ⟨μ₁, ω₁, f₁, h₁⟩ := round_relaxed wf fp
  have h₂ := opt.2 _ _ f₁
  rw [shrinks_relaxedCost sh] at h₁
  rw [← shrinks_cost sh] at hr
  have h3 := mul_le_mul_of_nonneg_left (h₂.trans h₁) (show (0 : K) ≤ ((c + 1 : Nat) : K) by positivity)
  have := h3.trans hr
  push_cast at this
  linarith

/-! ### Fixing a variable -/

theorem feasible_fix {i : Nat} {x : Int} {μ ω : Nat → Int} (h1 : 1 ≤ i) (h2 : i ≤ P.n) (hl : P.lo i ≤ x) (hu : x ≤ P.hi i) :
    Feasible (P.fix i x) μ ω ↔ Feasible P μ ω ∧ μ i = x := by
  constructor
  · intro f
    have e : μ i = x := by
      have := f.1 i h1 h2
      simp only [Problem.fix, if_true] at this
      omega
    refine ⟨⟨fun k h3 h4 => ?_, f.2⟩, e⟩
    by_cases hk : k = i
    · rw [hk]; omega
    · have := f.1 k h3 h4
      simpa [Problem.fix, hk] using this
  · rintro ⟨f, e⟩
    refine ⟨fun k h3 h4 => ?_, f.2⟩
    by_cases hk : k = i
    · simp [Problem.fix, hk, e]
    · simpa [Problem.fix, hk] using f.1 k h3 h4

theorem fix_shrinks {i : Nat} {x : Int} (hl : P.lo i ≤ x) (hu : x ≤ P.hi i) : P.Shrinks (P.fix i x) := by
  refine ⟨rfl, fun k _ _ => ?_, fun k _ _ => ?_, fun _ _ _ => rfl, ?_⟩
  · by_cases hk : k = i
    · simp [Problem.fix, hk, hl]
    · simp [Problem.fix, hk]
  · by_cases hk : k = i
    · simp [Problem.fix, hk, hu]
    · simp [Problem.fix, hk]
  · exact List.forall₂_same.2 fun p _ => ⟨rfl, rfl, le_rfl, le_rfl, rfl⟩

theorem wf_fix {i : Nat} {x : Int} (wf : WellFormed P) : WellFormed (P.fix i x) := by
  refine ⟨fun k h1 h2 => ?_, wf.i_pos, wf.i_le, wf.j_pos, wf.j_le, wf.ne, wf.le⟩
  by_cases hk : k = i
  · simp [Problem.fix, hk]
  · simpa [Problem.fix, hk] using wf.nodes k h1 h2

/-- The optimum is a convex function of the value given to a variable, and the values for which there is a solution form an interval. -/
theorem fix_convex (wf : WellFormed P) (cv : ConvexCosts P) {i : Nat} (h1 : 1 ≤ i) (h2 : i ≤ P.n) {a x b : Int} (ha : P.lo i ≤ a) (hax : a < x) (hxb : x < b)
    (hb : b ≤ P.hi i) {va vb : K} (oa : IsOptimum (P.fix i a) va) (ob : IsOptimum (P.fix i b) vb) :
    ∃ μ ω, Feasible (P.fix i x) μ ω ∧ ((b - a : Int) : K) * cost (P.fix i x) μ ω ≤ ((b - x : Int) : K) * va + ((x - a : Int) : K) * vb := by
  obtain ⟨⟨μ₁, ω₁, f₁, rfl⟩, -⟩ := oa
  obtain ⟨⟨μ₂, ω₂, f₂, rfl⟩, -⟩ := ob
  rw [feasible_fix h1 h2 ha (by omega)] at f₁
  rw [feasible_fix h1 h2 (by omega) hb] at f₂
  obtain ⟨f₁, e₁⟩ := f₁
  obtain ⟨f₂, e₂⟩ := f₂
  obtain ⟨c, hc⟩ : ∃ c : Nat, (c : Int) = b - x := ⟨(b - x).toNat, by omega⟩
  obtain ⟨d, hd⟩ : ∃ d : Nat, (d : Int) = x - a := ⟨(x - a).toNat, by omega⟩
  obtain ⟨fr, hr⟩ := mean_relaxed cv f₁ f₂ (c := c) (d := d) (by omega) (by omega)
  have ex : ((c * μ₁ i + d * μ₂ i : Int) : ℚ) / (c + d : Nat) = x := by
    have hN : ((c + d : Nat) : ℚ) ≠ 0 := by exact_mod_cast (show c + d ≠ 0 by omega)
    rw [div_eq_iff hN, e₁, e₂]
    have : (c * a + d * b : Int) = x * (c + d : Nat) := by push_cast; rw [hc, hd]; ring
    exact_mod_cast this
  have fx : RelaxedFeasible (P.fix i x) (fun i => ((c * μ₁ i + d * μ₂ i : Int) : ℚ) / (c + d : Nat)) (fun k => ((c * ω₁ k + d * ω₂ k : Int) : ℚ) / (c + d : Nat)) := by
    refine ⟨fun k h3 h4 => ?_, fr.2⟩
    by_cases hk : k = i
    · subst hk
      dsimp only
      rw [ex]
      simp [Problem.fix]
    · simpa [Problem.fix, hk] using fr.1 k h3 h4
  obtain ⟨μ, ω, f, h⟩ := round_relaxed (wf_fix wf) fx
  refine ⟨μ, ω, f, ?_⟩
  have h0 : (0 : K) ≤ ((c + d : Nat) : K) := by positivity
  have := (mul_le_mul_of_nonneg_left h h0).trans hr
  have e1 : ((b - a : Int) : K) = ((c + d : Nat) : K) := by
    have : (b - a : Int) = ((c + d : Nat) : Int) := by push_cast; omega
    rw [this, Int.cast_natCast]
  rw [e1, ← hc, ← hd, Int.cast_natCast, Int.cast_natCast]
  exact this

theorem fixAll_eq (μ : Nat → Int) (k : Nat) : P.fixAll μ k =
    { P with lo := fun i => if 1 ≤ i ∧ i ≤ k then μ i else P.lo i, hi := fun i => if 1 ≤ i ∧ i ≤ k then μ i else P.hi i } := by
  induction k with
  | zero =>
    have : ∀ i : Nat, ¬ (1 ≤ i ∧ i ≤ 0) := fun i => by omega
    simp only [Problem.fixAll, this, if_false]
  | succ k ih =>
    rw [Problem.fixAll, ih]
    simp only [Problem.fix, Problem.mk.injEq, true_and, and_true]
    constructor <;> funext i <;> by_cases hi : i = k + 1
    · subst hi; simp
    · have : i ≤ k + 1 ↔ i ≤ k := by omega
      simp [hi, this]
    · subst hi; simp
    · have : i ≤ k + 1 ↔ i ≤ k := by omega
      simp [hi, this]

theorem fixAll_facts (wf : WellFormed P) {μ : Nat → Int} (hμ : ∀ i, 1 ≤ i → i ≤ P.n → P.lo i ≤ μ i ∧ μ i ≤ P.hi i) :
    P.Shrinks (P.fixAll μ P.n) ∧ WellFormed (P.fixAll μ P.n) ∧
      ∀ {μ' ω}, Feasible (P.fixAll μ P.n) μ' ω → ∀ i, 1 ≤ i → i ≤ P.n → μ' i = μ i := by
  rw [fixAll_eq]
  refine ⟨⟨rfl, fun i h1 h2 => ?_, fun i h1 h2 => ?_, fun _ _ _ => rfl, List.forall₂_same.2 fun p _ => ⟨rfl, rfl, le_rfl, le_rfl, rfl⟩⟩,
    ⟨fun i h1 h2 => ?_, wf.i_pos, wf.i_le, wf.j_pos, wf.j_le, wf.ne, wf.le⟩, fun f i h1 h2 => ?_⟩
  · simp only [h1, h2, and_self, if_true]; exact (hμ i h1 h2).1
  · simp only [h1, h2, and_self, if_true]; exact (hμ i h1 h2).2
  · have h3 : i ≤ P.n := h2
    simp only [h1, h3, and_self, if_true]; exact le_rfl
  · have := f.1 i h1 h2
    simp only [h1, h2, and_self, if_true] at this
    omega

theorem feasible_congr (wf : WellFormed P) {μ μ' ω : Nat → Int} (e : ∀ i, 1 ≤ i → i ≤ P.n → μ' i = μ i) (f : Feasible P μ' ω) : Feasible P μ ω := by
  refine ⟨fun i h1 h2 => ?_, fun k hk => ?_⟩
  · rw [← e i h1 h2]; exact f.1 i h1 h2
  · have hp := List.getElem_mem hk
    rw [← e _ (wf.i_pos _ hp) (wf.i_le _ hp), ← e _ (wf.j_pos _ hp) (wf.j_le _ hp)]
    exact f.2 k hk

end AHO
