import Verif.Proof.Double
/-!
# Rounding to the nearest number
-/

namespace AHO.Format

/-- the nearest integer is at most half a unit away -/
theorem nearest_le (q : ℚ) : |q - nearest q| ≤ 1 / 2 := by
  have h1 := Int.floor_le q
  have h2 := Int.lt_floor_add_one q
  unfold nearest
  dsimp only
  rw [abs_le]
  split_ifs <;> push_cast <;> constructor <;> linarith

/-- no integer is nearer -/
theorem nearest_best (q : ℚ) (m : Int) : |q - nearest q| ≤ |q - m| := by
  by_cases h : m = nearest q
  · rw [h]
  · have h1 := nearest_le q
    have h3 : (1 : ℚ) ≤ |(m : ℚ) - nearest q| := by
      exact_mod_cast Int.one_le_abs (sub_ne_zero.2 h)
    have h4 : |(m : ℚ) - nearest q| ≤ |q - nearest q| + |q - m| := by
      rw [← abs_neg (q - m)]
      refine le_trans (le_of_eq ?_) (abs_add_le _ _)
      congr 1; ring
    linarith

theorem nearest_abs_le {q : ℚ} {b : Int} (h : |q| < b) : |nearest q| ≤ b := by
  by_contra hc
  have h1 := nearest_le q
  have h2 : (b : ℚ) + 1 ≤ |(nearest q : ℚ)| := by exact_mod_cast (not_le.1 hc)
  have h3 := abs_sub_abs_le_abs_sub (nearest q : ℚ) q
  rw [abs_sub_comm] at h1
  linarith

theorem le_nearest_abs {q : ℚ} {b : Int} (h : b ≤ |q|) : b ≤ |nearest q| := by
  by_contra hc
  have h1 := nearest_le q
  have h2 : |(nearest q : ℚ)| + 1 ≤ b := by exact_mod_cast (not_le.1 hc)
  have h3 := abs_sub_abs_le_abs_sub q (nearest q : ℚ)
  linarith

/-- if another integer is as near, the distance is one half and the chosen one is even -/
theorem nearest_tie {q : ℚ} {m : Int} (hm : m ≠ nearest q) (h : |q - m| = |q - nearest q|) :
    nearest q % 2 = 0 ∧ m % 2 = 1 ∧ (m = ⌊q⌋ ∨ m = ⌊q⌋ + 1) := by
  have h1 := Int.floor_le q
  have h2 := Int.lt_floor_add_one q
  have hle := nearest_le q
  have h5 : (1 : ℚ) ≤ |(m : ℚ) - nearest q| := by
    exact_mod_cast Int.one_le_abs (sub_ne_zero.2 hm)
  have h4 : |(m : ℚ) - nearest q| ≤ |q - nearest q| + |q - m| := by
    rw [← abs_neg (q - m)]
    refine le_trans (le_of_eq ?_) (abs_add_le _ _)
    congr 1; ring
  have h6 : |q - nearest q| = 1 / 2 := by linarith
  have h7 : |q - m| = 1 / 2 := by linarith
  have hq : q - ⌊q⌋ = 1 / 2 := by
    by_contra hne
    unfold nearest at h6
    dsimp only at h6
    rcases lt_or_gt_of_ne hne with c | c
    · rw [if_pos c, abs_of_nonneg (by linarith)] at h6; linarith
    · rw [if_neg (by linarith), if_pos c] at h6
      push_cast at h6
      rw [abs_of_nonpos (by linarith)] at h6; linarith
  have hmm : m = ⌊q⌋ ∨ m = ⌊q⌋ + 1 := by
    rcases (_root_.abs_eq (by norm_num : (0 : ℚ) ≤ 1 / 2)).1 h7 with c | c
    · left; have : (m : ℚ) = ⌊q⌋ := by linarith
      exact_mod_cast this
    · right; have : (m : ℚ) = ⌊q⌋ + 1 := by linarith
      exact_mod_cast this
  have hn : nearest q = if ⌊q⌋ % 2 = 0 then ⌊q⌋ else ⌊q⌋ + 1 := by
    unfold nearest
    dsimp only
    rw [if_neg (by linarith), if_neg (by linarith)]
  rw [hn] at hm ⊢
  refine ⟨?_, ?_, hmm⟩
  · split_ifs <;> omega
  · split_ifs at hm <;> omega

/-- `x`, measured in units of its last digit -/
def units (f : Format) (x : ℚ) : ℚ := x / pow2 (f.lastDigit x)

theorem units_mul (f : Format) (x : ℚ) : f.units x * pow2 (f.lastDigit x) = x :=
  div_mul_cancel₀ _ (pow2_pos _).ne'

theorem round_eq (f : Format) (x : ℚ) : f.round x = nearest (f.units x) * pow2 (f.lastDigit x) := by
  unfold round
  split
  · rename_i h
    have : f.units x = ((0 : Int) : ℚ) := by rw [units, h]; simp
    rw [this, nearest_int]; simp
  · rfl

theorem emin_le (f : Format) (x : ℚ) : f.emin ≤ f.lastDigit x := le_max_right _ _

/-- a number which is not small has at least `p` digits before the last one -/
theorem le_units {f : Format} {x : ℚ} (hp : 1 ≤ f.p) (hx : x ≠ 0) (h : f.emin < f.lastDigit x) : (2 : ℚ) ^ (f.p - 1) ≤ |f.units x| := by
  have e : f.lastDigit x = expo x - (f.p - 1) := by
    unfold lastDigit at h ⊢
    omega
  have h1 := expo_le hx
  rw [units, abs_div, abs_of_pos (pow2_pos _), le_div_iff₀ (pow2_pos _), e, ← pow2_nat, ← pow2_add]
  refine le_trans (le_of_eq ?_) h1
  congr 1; omega

theorem units_lt {f : Format} (x : ℚ) : |f.units x| < 2 ^ f.p := by
  rw [units, abs_div, abs_of_pos (pow2_pos _), div_lt_iff₀ (pow2_pos _), ← pow2_nat, ← pow2_add]
  refine (lt_expo x).trans_le (pow2_le.2 ?_)
  have : expo x - (f.p - 1) ≤ f.lastDigit x := le_max_left _ _
  omega

theorem round_dist (f : Format) (x : ℚ) (m : Int) :
    |x - m * pow2 (f.lastDigit x)| = |f.units x - m| * pow2 (f.lastDigit x) := by
  have : x - m * pow2 (f.lastDigit x) = (f.units x - m) * pow2 (f.lastDigit x) := by rw [sub_mul, units_mul]
  rw [this, abs_mul, abs_of_pos (pow2_pos _)]

/-- no multiple of the last digit is nearer -/
theorem round_best (f : Format) (x : ℚ) (m : Int) : |x - f.round x| ≤ |x - m * pow2 (f.lastDigit x)| := by
  rw [round_eq, round_dist, round_dist]
  exact mul_le_mul_of_nonneg_right (nearest_best _ _) (pow2_pos _).le

/-- numbers with digits below the last digit of `x` are farther away -/
theorem far {f : Format} {x : ℚ} (hx : x ≠ 0) (hp : 1 ≤ f.p) {k j : Int} (hk : |(k : ℚ)| < 2 ^ f.p) (hj : f.emin ≤ j)
    (h : j < f.lastDigit x) : |x - f.round x| < |x - k * pow2 j| := by
  have h1 := le_units hp hx (by omega : f.emin < f.lastDigit x)
  have hB : (2 : ℚ) ^ (f.p - 1) * pow2 (f.lastDigit x) ≤ |x| := by
    conv_rhs => rw [← f.units_mul x]
    rw [abs_mul, abs_of_pos (pow2_pos _)]
    exact mul_le_mul_of_nonneg_right h1 (pow2_pos _).le
  have hy : |k * pow2 j| < (2 : ℚ) ^ (f.p - 1) * pow2 (f.lastDigit x) := by
    rw [abs_mul, abs_of_pos (pow2_pos _)]
    refine (mul_lt_mul_of_pos_right hk (pow2_pos j)).trans_le ?_
    rw [← pow2_nat, ← pow2_nat, ← pow2_add, ← pow2_add, pow2_le]
    omega
  have hs : ∃ m : Int, |x - m * pow2 (f.lastDigit x)| = |x| - (2 : ℚ) ^ (f.p - 1) * pow2 (f.lastDigit x) := by
    rcases le_total 0 x with c | c
    · refine ⟨2 ^ (f.p - 1), ?_⟩
      rw [abs_of_nonneg c] at hB ⊢
      push_cast
      rw [abs_of_nonneg (by linarith)]
    · refine ⟨-2 ^ (f.p - 1), ?_⟩
      rw [abs_of_nonpos c] at hB ⊢
      push_cast
      rw [abs_of_nonpos (by linarith)]; ring
  obtain ⟨m, hm⟩ := hs
  have h2 := f.round_best x m
  have h3 := abs_sub_abs_le_abs_sub x (k * pow2 j)
  linarith

/-- numbers with digits from the last digit of `x` on are multiples of it -/
theorem multiple {f : Format} {x : ℚ} {k j : Int} (h : f.lastDigit x ≤ j) :
    (k : ℚ) * pow2 j = ((k * 2 ^ (j - f.lastDigit x).toNat : Int) : ℚ) * pow2 (f.lastDigit x) := by
  have : j = ((j - f.lastDigit x).toNat : Int) + f.lastDigit x := by omega
  conv_lhs => rw [this, pow2_add, pow2_nat]
  push_cast; ring

end AHO.Format
