import Verif.Proof.Rounding
/-!
# Floating-point operations round to the nearest number

The definition of rounding which IEEE 754 gives, without reference to the algorithm of `Format.round`.
-/

namespace AHO.Props
open Format

/-- The numbers of `p` digits, the last one not below `2 ^ emin`; exponents may be arbitrarily large. -/
def IsFloat (f : Format) (y : ℚ) : Prop := ∃ k j : Int, y = k * (2 : ℚ) ^ j ∧ |k| < 2 ^ f.p ∧ f.emin ≤ j

/-- `k` is the significand of `y` and `j` its exponent: all `p` digits are used, unless the exponent is the least one. -/
def Significand (f : Format) (y : ℚ) (k j : Int) : Prop :=
  y = k * (2 : ℚ) ^ j ∧ |k| < 2 ^ f.p ∧ f.emin ≤ j ∧ (2 ^ (f.p - 1) ≤ |k| ∨ j = f.emin)

/-- `y` is the nearest number to `x`; if another one is as near, the significand of `y` is even. -/
structure IsRounded (f : Format) (x y : ℚ) : Prop where
  float : IsFloat f y
  nearest : ∀ z, IsFloat f z → |x - y| ≤ |x - z|
  even : ∀ z, IsFloat f z → z ≠ y → |x - z| = |x - y| → ∃ k j, Significand f y k j ∧ k % 2 = 0

theorem round_significand {f : Format} (hp : 1 ≤ f.p) (x : ℚ) : ∃ k j, Significand f (f.round x) k j ∧
    (2 ≤ f.p → Format.nearest (f.units x) % 2 = 0 → k % 2 = 0) := by
  by_cases hx : x = 0
  · refine ⟨0, f.emin, ⟨?_, by simp, le_rfl, .inr rfl⟩, fun _ _ => rfl⟩
    rw [hx, Format.round, if_pos rfl]; simp
  have h1 : |Format.nearest (f.units x)| ≤ 2 ^ f.p := nearest_abs_le (b := 2 ^ f.p) (by exact_mod_cast units_lt x)
  have h2 : 2 ^ (f.p - 1) ≤ |Format.nearest (f.units x)| ∨ f.lastDigit x = f.emin := by
    rcases (f.emin_le x).lt_or_eq with c | c
    · exact .inl (le_nearest_abs (b := 2 ^ (f.p - 1)) (by exact_mod_cast le_units hp hx c))
    · exact .inr c.symm
  have hpp : (2 : Int) ^ f.p = 2 ^ (f.p - 1) * 2 := by rw [← pow_succ]; congr 1; omega
  have hpos : (0 : Int) < 2 ^ (f.p - 1) := by positivity
  rw [Format.round_eq]
  rcases h1.lt_or_eq with c | c
  · exact ⟨_, _, ⟨rfl, c, f.emin_le x, h2⟩, fun _ h => h⟩
  · obtain ⟨k, hk⟩ : ∃ k : Int, Format.nearest (f.units x) = k * 2 ∧ |k| = 2 ^ (f.p - 1) := by
      rcases abs_choice (Format.nearest (f.units x)) with d | d <;> rw [d] at c
      · exact ⟨2 ^ (f.p - 1), by omega, abs_of_pos hpos⟩
      · exact ⟨-2 ^ (f.p - 1), by omega, by rw [abs_neg, abs_of_pos hpos]⟩
    refine ⟨k, f.lastDigit x + 1, ⟨?_, by omega, by have := f.emin_le x; omega, .inl (by omega)⟩, fun h _ => ?_⟩
    · rw [hk.1, zpow_add_one₀ (by norm_num), pow2]; push_cast; ring
    · have : (2 : Int) ^ (f.p - 1) = 2 ^ (f.p - 2) * 2 := by rw [← pow_succ]; congr 1; omega
      rcases abs_choice k with d | d <;> omega

/-- The algorithm of the model rounds to the nearest number, ties to even. -/
theorem round_isRounded {f : Format} (hp : 2 ≤ f.p) (x : ℚ) : IsRounded f x (f.round x) := by
  obtain ⟨k, j, hs, he⟩ := round_significand (f := f) (by omega) x
  refine ⟨⟨k, j, hs.1, hs.2.1, hs.2.2.1⟩, ?_, ?_⟩
  · rintro z ⟨k, j, rfl, h1, h2⟩
    by_cases hx : x = 0
    · rw [hx, Format.round, if_pos rfl, sub_self, abs_zero]; exact abs_nonneg _
    rcases lt_or_ge j (f.lastDigit x) with c | c
    · exact (far hx (by omega) (by exact_mod_cast h1) h2 c).le
    · have := multiple (k := k) c
      rw [pow2] at this
      rw [this]
      exact f.round_best x _
  · rintro z ⟨k', j', rfl, h1, h2⟩ hne hd
    refine ⟨k, j, hs, he hp ?_⟩
    by_cases hx : x = 0
    · rw [hx, Format.round, if_pos rfl] at hne hd
      rw [sub_zero, abs_zero, zero_sub, abs_neg, abs_eq_zero] at hd
      exact absurd hd hne
    rcases lt_or_ge j' (f.lastDigit x) with c | c
    · have := far hx (by omega) (k := k') (by exact_mod_cast h1) h2 c
      rw [pow2] at this
      linarith
    · have hz : (k' : ℚ) * 2 ^ j' = _ := multiple (k := k') c
      rw [hz, Format.round_eq] at hd hne
      rw [round_dist, round_dist] at hd
      refine (nearest_tie (fun h => hne (by rw [h])) (mul_right_cancel₀ (pow2_pos _).ne' hd)).1

/-- There is only one such number. -/
theorem isRounded_unique {f : Format} (hp : 2 ≤ f.p) {x y : ℚ} (h : IsRounded f x y) : y = f.round x := by
  by_contra hne
  have hr := round_isRounded hp x
  have hd : |x - y| = |x - f.round x| := le_antisymm (h.nearest _ hr.float) (hr.nearest _ h.float)
  obtain ⟨k, j, ⟨rfl, h1, h2, h3⟩, he⟩ := h.even _ hr.float (Ne.symm hne) hd.symm
  by_cases hx : x = 0
  · rw [hx, Format.round, if_pos rfl] at hne hd
    rw [sub_zero, abs_zero, zero_sub, abs_neg, abs_eq_zero] at hd
    exact absurd hd hne
  rcases lt_or_ge j (f.lastDigit x) with c | c
  · have := far hx (by omega) (k := k) (by exact_mod_cast h1) h2 c
    rw [pow2] at this
    linarith
  · have hz : (k : ℚ) * 2 ^ j = _ := multiple (k := k) c
    rw [hz, Format.round_eq] at hd hne
    rw [round_dist, round_dist] at hd
    have ht := (nearest_tie (fun h => hne (by rw [h])) (mul_right_cancel₀ (pow2_pos _).ne' hd)).2.1
    rw [Int.mul_emod, he] at ht
    simp at ht

/-- C40. The result of an operation of the model is the number nearest to the exact result (of two such the one with the even
significand); it is infinite if this number is `2 ^ emax` or more. -/
theorem C40_rounding {f : Format} (hp : 2 ≤ f.p) (x : ℚ) : ∃ y, IsRounded f x y ∧ (∀ y', IsRounded f x y' → y' = y) ∧
    f.result x = if (2 : ℚ) ^ f.emax ≤ y then .pinf else if y ≤ -(2 : ℚ) ^ f.emax then .ninf else .fin y :=
  ⟨f.round x, round_isRounded hp x, fun _ h => isRounded_unique hp h, rfl⟩

/-- `double` has 53 digits; 0.1 is rounded up, and the tie `2 ^ 53 + 1` to the number with the even significand. -/
example : 2 ≤ binary64.p ∧ IsRounded binary64 (1 / 10) (3602879701896397 / 36028797018963968) ∧
    IsRounded binary64 (2 ^ 53 + 1) (2 ^ 53) ∧ IsRounded binary64 (2 ^ 53 + 3) (2 ^ 53 + 4) := by
  have hp : 2 ≤ binary64.p := by decide
  refine ⟨hp, ?_, ?_, ?_⟩
  · have := round_isRounded hp (1 / 10)
    rwa [show binary64.round (1 / 10) = 3602879701896397 / 36028797018963968 by decide +kernel] at this
  · have := round_isRounded hp (2 ^ 53 + 1)
    rwa [show binary64.round (2 ^ 53 + 1) = 2 ^ 53 by decide +kernel] at this
  · have := round_isRounded hp (2 ^ 53 + 3)
    rwa [show binary64.round (2 ^ 53 + 3) = 2 ^ 53 + 4 by decide +kernel] at this

/-- C40. The limits of `double` and `float` as in `<cfloat>`: `DBL_EPSILON`, `DBL_MAX`, `DBL_TRUE_MIN` and what lies just beyond them. -/
theorem C40_formats :
    (binary64.result (1 + 1 / 2 ^ 52) = .fin (1 + 1 / 2 ^ 52) ∧ binary64.result (1 + 1 / 2 ^ 53) = .fin 1 ∧
      binary64.result (2 ^ 1024 - 2 ^ 971) = .fin (2 ^ 1024 - 2 ^ 971) ∧ binary64.result (2 ^ 1024 - 2 ^ 970) = .pinf ∧
      binary64.result (1 / 2 ^ 1074) = .fin (1 / 2 ^ 1074) ∧ binary64.result (1 / 2 ^ 1075) = .fin 0) ∧
    (binary32.result (1 + 1 / 2 ^ 23) = .fin (1 + 1 / 2 ^ 23) ∧ binary32.result (1 + 1 / 2 ^ 24) = .fin 1 ∧
      binary32.result (2 ^ 128 - 2 ^ 104) = .fin (2 ^ 128 - 2 ^ 104) ∧ binary32.result (2 ^ 128 - 2 ^ 103) = .pinf ∧
      binary32.result (1 / 2 ^ 149) = .fin (1 / 2 ^ 149) ∧ binary32.result (1 / 2 ^ 150) = .fin 0) := by
  decide +kernel

/-- C40. On finite operands the operations compute exactly and round once. Division is by a number other than 0. -/
theorem C40_operations {f : Format} (x y : ℚ) :
    (Flt.ofRat f x + Flt.ofRat f y).val = f.result (x + y) ∧ (Flt.ofRat f x - Flt.ofRat f y).val = f.result (x - y) ∧
    (Flt.ofRat f x * Flt.ofRat f y).val = f.result (x * y) ∧
    (y ≠ 0 → (Flt.ofRat f x / Flt.ofRat f y).val = f.result (x / y)) ∧
    (∀ n : Int, (n : Flt f).val = f.result n) ∧ (-Flt.ofRat f x) = Flt.ofRat f (-x) ∧
    (Flt.ofRat f x < Flt.ofRat f y ↔ x < y) ∧ (Flt.ofRat f x ≤ Flt.ofRat f y ↔ x ≤ y) ∧
    ((Flt.ofRat f x == Flt.ofRat f y) = true ↔ x = y) := by
  refine ⟨rfl, ?_, rfl, fun hy => ?_, fun _ => rfl, rfl, Iff.rfl, Iff.rfl, ?_⟩
  · show f.result (x + -y) = _
    rw [sub_eq_add_neg]
  · show (Flt.rnd f (if y = 0 then _ else _)).val = _
    rw [if_neg hy]; rfl
  · show decide (x = y) = true ↔ x = y
    exact decide_eq_true_iff

/-- infinity -/
def inf (f : Format) : Flt f := ⟨.pinf⟩
/-- minus infinity -/
def negInf (f : Format) : Flt f := ⟨.ninf⟩
/-- not a number -/
def nan (f : Format) : Flt f := ⟨.nan⟩

/-- C40. Infinities and NaN in sums, and in comparisons. -/
theorem C40_special {f : Format} (x : ℚ) (a : Flt f) :
    inf f + Flt.ofRat f x = inf f ∧ Flt.ofRat f x + inf f = inf f ∧ negInf f + Flt.ofRat f x = negInf f ∧
    Flt.ofRat f x + negInf f = negInf f ∧ inf f + inf f = inf f ∧ negInf f + negInf f = negInf f ∧
    inf f + negInf f = nan f ∧ negInf f + inf f = nan f ∧ inf f - inf f = nan f ∧ nan f + a = nan f ∧ a + nan f = nan f ∧
    nan f - a = nan f ∧ a - nan f = nan f ∧ nan f * a = nan f ∧ a * nan f = nan f ∧ nan f / a = nan f ∧ a / nan f = nan f ∧
    -inf f = negInf f ∧ -negInf f = inf f ∧ -nan f = nan f ∧
    (∀ a : Flt f, ¬ nan f < a ∧ ¬ a < nan f ∧ ¬ nan f ≤ a ∧ ¬ a ≤ nan f ∧ (nan f == a) = false ∧ (a == nan f) = false) ∧
    Flt.ofRat f x < inf f ∧ negInf f < Flt.ofRat f x ∧ negInf f < inf f ∧ ¬ inf f < inf f ∧ ¬ inf f < a ∧ ¬ a < negInf f := by
  obtain ⟨a⟩ := a
  refine ⟨rfl, rfl, rfl, rfl, rfl, rfl, rfl, rfl, rfl, ?_, ?_, ?_, ?_, ?_, ?_, ?_, ?_, rfl, rfl, rfl, ?_, trivial, trivial, trivial, ?_, ?_, ?_⟩
  any_goals (cases a <;> rfl)
  · rintro ⟨b⟩
    refine ⟨?_, ?_, ?_, ?_, ?_, ?_⟩ <;> cases b <;> first | rfl | exact id
  · exact id
  · cases a <;> exact id
  · cases a <;> exact id

end AHO.Props
