import Verif.SpecRelaxed
import Mathlib.Algebra.Order.Floor.Ring
import Mathlib.Algebra.BigOperators.Ring.Finset
import Mathlib.Algebra.Order.BigOperators.Group.Finset
import Mathlib.Tactic.Ring
import Mathlib.Tactic.Linarith
import Mathlib.Tactic.FieldSimp
/-!
# Fractional assignments

Numbers with the denominator `N` are rounded in `N` ways, `A / N` to `(A + t) / N` for `t = 0, …, N - 1`. On the average the costs do not change.
-/

namespace AHO.Spec

/-- all the roundings of a number add up to the number times `N` -/
theorem sum_div {N : Nat} (hN : 0 < N) (A : Int) : ∑ t ∈ Finset.range N, (A + t) / (N : Int) = A := by
  have step : ∀ A : Int, ∑ t ∈ Finset.range N, (A + 1 + t) / (N : Int) = ∑ t ∈ Finset.range N, (A + t) / (N : Int) + 1 := by
    intro A
    have h1 := Finset.sum_range_succ (fun t : Nat => (A + t) / (N : Int)) N
    have h2 := Finset.sum_range_succ' (fun t : Nat => (A + t) / (N : Int)) N
    rw [h1] at h2
    have e : (A + (N : Int)) / N = A / N + 1 := Int.add_ediv_of_dvd_right (dvd_refl _) |>.trans (by rw [Int.ediv_self (by omega)])
    rw [e] at h2
    simp only [Nat.cast_zero, add_zero] at h2
    have e2 : ∑ t ∈ Finset.range N, (A + 1 + t) / (N : Int) = ∑ t ∈ Finset.range N, (A + ((t + 1 : Nat) : Int)) / (N : Int) :=
      Finset.sum_congr rfl fun t _ => by push_cast; congr 1; ring
    rw [e2]
    linarith
  have base : ∑ t ∈ Finset.range N, (0 + (t : Int)) / (N : Int) = 0 := by
    refine Finset.sum_eq_zero fun t ht => ?_
    rw [zero_add]
    exact Int.ediv_eq_zero_of_lt (by omega) (by exact_mod_cast Finset.mem_range.1 ht)
  induction A using Int.induction_on with
  | zero => exact base
  | succ n ih => rw [step, ih]
  | pred n ih =>
    have := step (-(n : Int) - 1)
    rw [show -(n : Int) - 1 + 1 = -n by ring, ih] at this
    linarith

/-- the difference of two roundings is one of two neighbouring integers -/
theorem div_sub_div {N : Int} (hN : 0 < N) (B d : Int) : (B + d) / N - B / N = d / N ∨ (B + d) / N - B / N = d / N + 1 := by
  have h1 := Int.mul_ediv_add_emod (B + d) N
  have h2 := Int.mul_ediv_add_emod B N
  have h3 := Int.mul_ediv_add_emod d N
  have l1 := Int.emod_nonneg (B + d) hN.ne'
  have l2 := Int.emod_nonneg B hN.ne'
  have l3 := Int.emod_nonneg d hN.ne'
  have u1 := Int.emod_lt_of_pos (B + d) hN
  have u2 := Int.emod_lt_of_pos B hN
  have u3 := Int.emod_lt_of_pos d hN
  generalize (B + d) / N = x at *
  generalize B / N = y at *
  generalize d / N = z at *
  have a : N * (x - y - z) < N * 2 := by nlinarith
  have b : N * (-1) < N * (x - y - z) := by nlinarith
  have a' := lt_of_mul_lt_mul_left a hN.le
  have b' := lt_of_mul_lt_mul_left b hN.le
  omega

variable {K : Type} [Field K] [LinearOrder K] [IsStrictOrderedRing K]

theorem interp_frac {N : Nat} (hN : 0 < N) (g : Int → K) (d : Int) :
    (N : K) * interp g ((d : ℚ) / N) = N * g (d / N) + (d % N : Int) * (g (d / N + 1) - g (d / N)) := by
  have hq : ⌊(d : ℚ) / N⌋ = d / N := by
    rw [Rat.floor_intCast_div_natCast]
  have hf : (N : ℚ) * Int.fract ((d : ℚ) / N) = ((d % N : Int) : ℚ) := by
    have hN' : (N : ℚ) ≠ 0 := by exact_mod_cast hN.ne'
    rw [Int.fract, hq, mul_sub, mul_div_cancel₀ _ hN']
    have := Int.mul_ediv_add_emod d N
    have : ((N : ℚ) * ((d / N : Int) : ℚ)) + ((d % N : Int) : ℚ) = d := by exact_mod_cast this
    linarith
  have hf' : (N : K) * ((Int.fract ((d : ℚ) / N) : ℚ) : K) = ((d % N : Int) : K) := by
    have := congrArg (Rat.cast : ℚ → K) hf
    push_cast at this
    exact_mod_cast this
  unfold interp
  rw [hq, ← hf']
  ring

/-- The average over all roundings of a difference is the interpolated cost of the difference. -/
theorem sum_interp {N : Nat} (hN : 0 < N) (g : Int → K) (B d : Int) :
    ∑ t ∈ Finset.range N, g ((B + d + t) / N - (B + t) / N) = N * interp g ((d : ℚ) / N) := by
  have h : ∀ t ∈ Finset.range N, g ((B + d + t) / N - (B + t) / N) =
      g (d / N) + (((B + d + t) / N - (B + t) / N - d / N : Int) : K) * (g (d / N + 1) - g (d / N)) := by
    intro t _
    have e : B + d + t = B + t + d := by ring
    rcases div_sub_div (by exact_mod_cast hN : (0 : Int) < N) (B + t) d with h | h <;> rw [e, h]
    · simp
    · simp
  rw [Finset.sum_congr rfl h, Finset.sum_add_distrib, ← Finset.sum_mul, ← Int.cast_sum, Finset.sum_sub_distrib, Finset.sum_sub_distrib,
    sum_div hN, sum_div hN, interp_frac hN]
  simp only [Finset.sum_const, Finset.card_range, nsmul_eq_mul]
  congr 3
  have := Int.mul_ediv_add_emod d N
  linarith

/-- a common denominator of finitely many numbers -/
theorem common_denominator (f : Nat → ℚ) (m : Nat) : ∃ N : Nat, 0 < N ∧ ∀ i, i ≤ m → ∃ A : Int, f i = (A : ℚ) / N := by
  induction m with
  | zero => exact ⟨(f 0).den, (f 0).pos, fun i hi => ⟨(f 0).num, by rw [Nat.le_zero.1 hi]; exact (Rat.num_div_den _).symm⟩⟩
  | succ m ih =>
    obtain ⟨N, hN, h⟩ := ih
    refine ⟨N * (f (m + 1)).den, Nat.mul_pos hN (Rat.pos _), fun i hi => ?_⟩
    have hN' : (N : ℚ) ≠ 0 := by exact_mod_cast hN.ne'
    have hd : ((f (m + 1)).den : ℚ) ≠ 0 := by exact_mod_cast (Rat.pos _).ne'
    rcases Nat.lt_or_ge m i with hm | hm
    · obtain rfl : i = m + 1 := by omega
      refine ⟨(f (m + 1)).num * N, ?_⟩
      conv_lhs => rw [← Rat.num_div_den (f (m + 1))]
      push_cast
      field_simp
    · obtain ⟨A, e⟩ := h i hm
      refine ⟨A * (f (m + 1)).den, ?_⟩
      rw [e]
      push_cast
      field_simp

/-- A fractional assignment with the denominator `N` can be rounded to an assignment which does not cost more. -/
theorem round_grid {P : Problem K} (wf : WellFormed P) {μ ω : Nat → ℚ} (h : RelaxedFeasible P μ ω) {N : Nat} (hN : 0 < N) {A W : Nat → Int}
    (hA : ∀ i, i ≤ P.n → μ i = (A i : ℚ) / N) (hW : ∀ k, k < P.pairs.length → ω k = (W k : ℚ) / N) :
    ∃ t < N, ∃ ω', Feasible P (fun i => (A i + t) / N) ω' ∧ cost P (fun i => (A i + t) / N) ω' ≤ relaxedCost P μ ω := by
  have hN0 : (0 : ℚ) < N := by exact_mod_cast hN
  have hNi : (0 : Int) < N := by exact_mod_cast hN
  let m : Nat → Nat → Int := fun t i => (A i + t) / N
  let w : Nat → Nat → Int := fun t k => if hk : k < P.pairs.length then (A P.pairs[k].j + W k + t) / N - (A P.pairs[k].j + t) / N else 0
  have feas : ∀ t, t < N → Feasible P (m t) (w t) := by
    intro t ht
    refine ⟨fun i h1 h2 => ?_, fun k hk => ?_⟩
    · obtain ⟨a, b⟩ := h.1 i h1 h2
      rw [hA i h2, le_div_iff₀ hN0] at a
      rw [hA i h2, div_le_iff₀ hN0] at b
      have a' : P.lo i * N ≤ A i := by exact_mod_cast a
      have b' : A i ≤ P.hi i * N := by exact_mod_cast b
      refine ⟨(Int.le_ediv_iff_mul_le hNi).2 (by omega), Int.lt_add_one_iff.1 ((Int.ediv_lt_iff_lt_mul hNi).2 ?_)⟩
      rw [add_mul]; omega
    · obtain ⟨a, b, c⟩ := h.2 k hk
      have hp := List.getElem_mem hk
      rw [hW k hk, le_div_iff₀ hN0] at a
      rw [hW k hk, div_le_iff₀ hN0] at b
      rw [hW k hk, hA _ (wf.i_le _ hp), hA _ (wf.j_le _ hp), ← sub_div, div_le_div_iff_of_pos_right hN0] at c
      have a' : P.pairs[k].l * N ≤ W k := by exact_mod_cast a
      have b' : W k ≤ P.pairs[k].u * N := by exact_mod_cast b
      have c' : A P.pairs[k].i - A P.pairs[k].j ≤ W k := by exact_mod_cast c
      have shift : ∀ x : Int, (A P.pairs[k].j + x * N + t) / N = (A P.pairs[k].j + t) / N + x := by
        intro x
        rw [show A P.pairs[k].j + x * N + t = A P.pairs[k].j + t + x * N by ring, Int.add_mul_ediv_right _ _ hNi.ne']
      have a2 := Int.ediv_le_ediv hNi (show A P.pairs[k].j + P.pairs[k].l * N + t ≤ A P.pairs[k].j + W k + t by omega)
      have b2 := Int.ediv_le_ediv hNi (show A P.pairs[k].j + W k + t ≤ A P.pairs[k].j + P.pairs[k].u * N + t by omega)
      have c2 := Int.ediv_le_ediv hNi (show A P.pairs[k].i + t ≤ A P.pairs[k].j + W k + t by omega)
      rw [shift] at a2 b2
      simp only [w, m, hk, dif_pos]
      omega
  have total : ∑ t ∈ Finset.range N, cost P (m t) (w t) = N * relaxedCost P μ ω := by
    unfold cost relaxedCost
    rw [Finset.sum_add_distrib, Finset.sum_comm, mul_add, Finset.mul_sum, Finset.mul_sum]
    congr 1
    · refine Finset.sum_congr rfl fun i hi => ?_
      have := sum_interp hN (P.F i) 0 (A i)
      rw [hA i (Finset.mem_Icc.1 hi).2, ← this]
      refine Finset.sum_congr rfl fun t ht => ?_
      have : (0 + (t : Int)) / N = 0 := by
        rw [zero_add]; exact Int.ediv_eq_zero_of_lt (by omega) (by exact_mod_cast Finset.mem_range.1 ht)
      rw [this, sub_zero, zero_add]
    · rw [Finset.sum_comm]
      refine Finset.sum_congr rfl fun k _ => ?_
      have := sum_interp hN P.pairs[k].B (A P.pairs[k].j) (W k)
      rw [hW k k.2, ← this]
      refine Finset.sum_congr rfl fun t _ => ?_
      simp [w]
  by_contra hc
  have hc : ∀ t ω', t < N → Feasible P (fun i => (A i + t) / N) ω' → relaxedCost P μ ω < cost P (fun i => (A i + t) / N) ω' :=
    fun t ω' ht hf => lt_of_not_ge fun hle => hc ⟨t, ht, ω', hf, hle⟩
  have : ∑ t ∈ Finset.range N, relaxedCost P μ ω < ∑ t ∈ Finset.range N, cost P (m t) (w t) :=
    Finset.sum_lt_sum_of_nonempty ⟨0, Finset.mem_range.2 hN⟩ fun t ht => hc t (w t) (Finset.mem_range.1 ht) (feas t (Finset.mem_range.1 ht))
  rw [total, Finset.sum_const, Finset.card_range, nsmul_eq_mul] at this
  exact lt_irrefl _ this

/-- A fractional assignment can be rounded to an assignment which does not cost more. -/
theorem round_relaxed {P : Problem K} (wf : WellFormed P) {μ ω : Nat → ℚ} (h : RelaxedFeasible P μ ω) :
    ∃ μ' ω', Feasible P μ' ω' ∧ cost P μ' ω' ≤ relaxedCost P μ ω := by
  obtain ⟨N₁, h₁, hμ⟩ := common_denominator μ P.n
  obtain ⟨N₂, h₂, hω⟩ := common_denominator ω P.pairs.length
  set N := N₁ * N₂ with hNd
  have hN : 0 < N := Nat.mul_pos h₁ h₂
  have q1 : (N₁ : ℚ) ≠ 0 := by exact_mod_cast h₁.ne'
  have q2 : (N₂ : ℚ) ≠ 0 := by exact_mod_cast h₂.ne'
  have hA : ∀ i, ∃ A : Int, i ≤ P.n → μ i = (A : ℚ) / N := by
    intro i
    by_cases hi : i ≤ P.n
    · obtain ⟨A, e⟩ := hμ i hi
      exact ⟨A * N₂, fun _ => by rw [e, hNd]; push_cast; field_simp⟩
    · exact ⟨0, fun h => absurd h hi⟩
  have hW : ∀ k, ∃ W : Int, k < P.pairs.length → ω k = (W : ℚ) / N := by
    intro k
    by_cases hk : k < P.pairs.length
    · obtain ⟨A, e⟩ := hω k hk.le
      exact ⟨A * N₁, fun _ => by rw [e, hNd]; push_cast; field_simp⟩
    · exact ⟨0, fun h => absurd h hk⟩
  choose A hA using hA
  choose W hW using hW
  obtain ⟨t, -, ω', f, c⟩ := round_grid wf h hN hA hW
  exact ⟨_, ω', f, c⟩

omit [LinearOrder K] [IsStrictOrderedRing K] in
theorem interp_int (g : Int → K) (x : Int) : interp g (x : ℚ) = g x := by simp [interp]

omit [LinearOrder K] [IsStrictOrderedRing K] in
/-- an integer assignment is a fractional one -/
theorem relaxed_of_int {P : Problem K} {μ ω : Nat → Int} (h : Feasible P μ ω) :
    RelaxedFeasible P (fun i => μ i) (fun k => ω k) ∧ relaxedCost P (fun i => μ i) (fun k => ω k) = cost P μ ω := by
  refine ⟨⟨fun i h1 h2 => ?_, fun k hk => ?_⟩, ?_⟩
  · obtain ⟨a, b⟩ := h.1 i h1 h2
    dsimp only
    exact ⟨by exact_mod_cast a, by exact_mod_cast b⟩
  · obtain ⟨a, b, c⟩ := h.2 k hk
    dsimp only
    exact ⟨by exact_mod_cast a, by exact_mod_cast b, by exact_mod_cast c⟩
  · simp only [relaxedCost, cost, interp_int]

/-! ### Midpoints -/

omit [IsStrictOrderedRing K] in
theorem slope_le {g : Int → K} {l u : Int} (h : Convex g l u) {x : Int} (hx : l ≤ x) : ∀ (k : Nat), x + k + 1 ≤ u → g (x + 1) - g x ≤ g (x + k + 1) - g (x + k)
  | 0, _ => by simp
  | k + 1, hk => by
    have h1 := slope_le h hx k (by push_cast at hk; omega)
    have h2 := h (x + k) (by omega) (by push_cast at hk; omega)
    push_cast
    rw [show x + (k + 1 : Int) + 1 = x + k + 2 by ring, show x + (k + 1 : Int) = x + k + 1 by ring]
    exact h1.trans h2

/-- of two pairs of numbers with the same sum the closer one costs less -/
theorem exchange {g : Int → K} {l u : Int} (h : Convex g l u) : ∀ (k : Nat) {a b : Int}, l ≤ a → a + 2 * k ≤ b → b ≤ u →
    g (a + k) + g (b - k) ≤ g a + g b
  | 0, a, b, _, _, _ => by simp
  | k + 1, a, b, ha, hab, hb => by
    push_cast at hab
    have h1 := exchange h k (a := a + 1) (b := b - 1) (by omega) (by omega) (by omega)
    have h2 := slope_le h ha (b - a - 1).toNat (by omega)
    have e : ((b - a - 1).toNat : Int) = b - a - 1 := by omega
    rw [e, show a + (b - a - 1) + 1 = b by ring, show a + (b - a - 1) = b - 1 by ring] at h2
    push_cast
    rw [show a + (k + 1 : Int) = a + 1 + k by ring, show b - (k + 1 : Int) = b - 1 - k by ring]
    linarith

theorem interp_mid {g : Int → K} {l u a b : Int} (h : Convex g l u) (ha : l ≤ a) (ha' : a ≤ u) (hb : l ≤ b) (hb' : b ≤ u) :
    2 * interp g (((a + b : Int) : ℚ) / (2 : Nat)) ≤ g a + g b := by
  wlog hab : a ≤ b generalizing a b
  · rw [add_comm a b, add_comm (g a)]
    exact this hb hb' ha ha' (by omega)
  have h1 := interp_frac (K := K) (N := 2) (by decide) g (a + b)
  rw [Nat.cast_ofNat] at h1
  rw [h1]
  have h2 := exchange h ((b - a) / 2).toNat (a := a) (b := b) ha (by omega) hb'
  have e : ((((b - a) / 2).toNat : Nat) : Int) = (b - a) / 2 := by omega
  rw [e] at h2
  have hm : (a + b) % ((2 : Nat) : Int) = 0 ∨ (a + b) % ((2 : Nat) : Int) = 1 := by push_cast; omega
  rcases hm with hm | hm <;> rw [hm]
  · have e1 : a + (b - a) / 2 = (a + b) / (2 : Nat) := by push_cast; push_cast at hm; omega
    have e2 : b - (b - a) / 2 = (a + b) / (2 : Nat) := by push_cast; push_cast at hm; omega
    rw [e1, e2] at h2
    push_cast at h2 ⊢
    linarith
  · have e1 : a + (b - a) / 2 = (a + b) / (2 : Nat) := by push_cast; push_cast at hm; omega
    have e2 : b - (b - a) / 2 = (a + b) / (2 : Nat) + 1 := by push_cast; push_cast at hm; omega
    rw [e1, e2] at h2
    push_cast at h2 ⊢
    linarith

theorem midway_relaxed {P Q R : Problem K} (m : Midway P Q R) {μ₁ ω₁ μ₂ ω₂ : Nat → Int} (h₁ : Feasible Q μ₁ ω₁) (h₂ : Feasible R μ₂ ω₂) :
    ∃ μ ω, RelaxedFeasible P μ ω ∧ 2 * relaxedCost P μ ω ≤ cost Q μ₁ ω₁ + cost R μ₂ ω₂ := by
  refine ⟨fun i => ((μ₁ i + μ₂ i : Int) : ℚ) / (2 : Nat), fun k => ((ω₁ k + ω₂ k : Int) : ℚ) / (2 : Nat), ⟨fun i hi hi' => ?_, fun k hk => ?_⟩, ?_⟩
  · obtain ⟨a, b⟩ := h₁.1 i hi (m.n.1 ▸ hi')
    obtain ⟨c, d⟩ := h₂.1 i hi (m.n.2 ▸ hi')
    have e := m.lo i hi hi'
    have f := m.hi i hi hi'
    dsimp only
    constructor
    · rw [le_div_iff₀ (by norm_num)]; have : P.lo i * 2 ≤ μ₁ i + μ₂ i := by omega
      exact_mod_cast this
    · rw [div_le_iff₀ (by norm_num)]; have : μ₁ i + μ₂ i ≤ P.hi i * 2 := by omega
      exact_mod_cast this
  · have hq : k < Q.pairs.length := m.len.1 ▸ hk
    have hr : k < R.pairs.length := m.len.2 ▸ hk
    obtain ⟨i1, i2, j1, j2, -, -, l, u, -⟩ := m.pairs k _ _ _ (List.getElem?_eq_getElem hk) (List.getElem?_eq_getElem hq) (List.getElem?_eq_getElem hr)
    obtain ⟨a, b, c⟩ := h₁.2 k hq
    obtain ⟨a', b', c'⟩ := h₂.2 k hr
    rw [i1, j1] at c
    rw [i2, j2] at c'
    dsimp only
    refine ⟨?_, ?_, ?_⟩
    · rw [le_div_iff₀ (by norm_num)]; have : P.pairs[k].l * 2 ≤ ω₁ k + ω₂ k := by omega
      exact_mod_cast this
    · rw [div_le_iff₀ (by norm_num)]; have : ω₁ k + ω₂ k ≤ P.pairs[k].u * 2 := by omega
      exact_mod_cast this
    · rw [← sub_div]
      refine div_le_div_of_nonneg_right ?_ (by norm_num)
      have : (μ₁ P.pairs[k].i + μ₂ P.pairs[k].i) - (μ₁ P.pairs[k].j + μ₂ P.pairs[k].j) ≤ ω₁ k + ω₂ k := by omega
      exact_mod_cast this
  · have s1 : 2 * ∑ i ∈ Finset.Icc 1 P.n, interp (P.F i) (((μ₁ i + μ₂ i : Int) : ℚ) / (2 : Nat)) ≤
        ∑ i ∈ Finset.Icc 1 Q.n, Q.F i (μ₁ i) + ∑ i ∈ Finset.Icc 1 R.n, R.F i (μ₂ i) := by
      rw [m.n.1, m.n.2, Finset.mul_sum, ← Finset.sum_add_distrib]
      refine Finset.sum_le_sum fun i hi => ?_
      obtain ⟨h1, h2⟩ := Finset.mem_Icc.1 hi
      obtain ⟨a, b⟩ := h₁.1 i h1 (m.n.1 ▸ h2)
      obtain ⟨c, d⟩ := h₂.1 i h1 (m.n.2 ▸ h2)
      rw [(m.F i h1 h2).1, (m.F i h1 h2).2]
      exact interp_mid (m.nodes i h1 h2) (by omega) (by omega) (by omega) (by omega)
    have s2 : 2 * ∑ k : Fin P.pairs.length, interp P.pairs[k].B (((ω₁ k + ω₂ k : Int) : ℚ) / (2 : Nat)) ≤
        ∑ k : Fin Q.pairs.length, Q.pairs[k].B (ω₁ k) + ∑ k : Fin R.pairs.length, R.pairs[k].B (ω₂ k) := by
      have e1 : ∑ k : Fin Q.pairs.length, Q.pairs[k].B (ω₁ k) = ∑ k : Fin P.pairs.length, P.pairs[k].B (ω₁ k) := by
        refine Fintype.sum_equiv (finCongr m.len.1) _ _ fun k => ?_
        have hk : (k : Nat) < P.pairs.length := m.len.1 ▸ k.2
        have hr : (k : Nat) < R.pairs.length := m.len.2 ▸ hk
        have := (m.pairs k _ _ _ (List.getElem?_eq_getElem hk) (List.getElem?_eq_getElem k.2) (List.getElem?_eq_getElem hr)).2.2.2.2.1
        simpa using congrFun this (ω₁ k)
      have e2 : ∑ k : Fin R.pairs.length, R.pairs[k].B (ω₂ k) = ∑ k : Fin P.pairs.length, P.pairs[k].B (ω₂ k) := by
        refine Fintype.sum_equiv (finCongr m.len.2) _ _ fun k => ?_
        have hk : (k : Nat) < P.pairs.length := m.len.2 ▸ k.2
        have hq : (k : Nat) < Q.pairs.length := m.len.1 ▸ hk
        have := (m.pairs k _ _ _ (List.getElem?_eq_getElem hk) (List.getElem?_eq_getElem hq) (List.getElem?_eq_getElem k.2)).2.2.2.2.2.1
        simpa using congrFun this (ω₂ k)
      rw [e1, e2, Finset.mul_sum, ← Finset.sum_add_distrib]
      refine Finset.sum_le_sum fun k _ => ?_
      have hq : (k : Nat) < Q.pairs.length := by rw [m.len.1]; exact k.2
      have hr : (k : Nat) < R.pairs.length := by rw [m.len.2]; exact k.2
      have cv := (m.pairs k _ _ _ (List.getElem?_eq_getElem k.2) (List.getElem?_eq_getElem hq) (List.getElem?_eq_getElem hr)).2.2.2.2.2.2.2.2
      obtain ⟨a, b, -⟩ := h₁.2 k hq
      obtain ⟨c, d, -⟩ := h₂.2 k hr
      exact interp_mid cv (by omega) (by omega) (by omega) (by omega)
    unfold relaxedCost cost
    linarith

/-- The optimum is a convex function of the limits. -/
theorem optimum_midway {P Q R : Problem K} (wf : WellFormed P) (m : Midway P Q R) {u v w : K} (hu : IsOptimum P u) (hv : IsOptimum Q v)
    (hw : IsOptimum R w) : 2 * u ≤ v + w := by
  obtain ⟨⟨μ₁, ω₁, f₁, rfl⟩, -⟩ := hv
  obtain ⟨⟨μ₂, ω₂, f₂, rfl⟩, -⟩ := hw
  obtain ⟨μ, ω, f, h⟩ := midway_relaxed m f₁ f₂
  obtain ⟨μ', ω', f', h'⟩ := round_relaxed wf f
  have := hu.2 μ' ω' f'
  linarith

theorem solvable_midway {P Q R : Problem K} (wf : WellFormed P) (m : Midway P Q R) (hq : Solvable Q) (hr : Solvable R) : Solvable P := by
  obtain ⟨μ₁, ω₁, f₁⟩ := hq
  obtain ⟨μ₂, ω₂, f₂⟩ := hr
  obtain ⟨μ, ω, f, -⟩ := midway_relaxed m f₁ f₂
  obtain ⟨μ', ω', f', -⟩ := round_relaxed wf f
  exact ⟨μ', ω', f'⟩

end AHO.Spec
