import Verif.Model.Print
import Verif.Proof.GenText
import Verif.Proof.WrappedFloat
import Verif.Props.WrappedDouble
/-!
# The output of `WrappedDouble`
-/

namespace AHO.Props
open Format

/-! ### Examples of the formats -/

/-- C76. Samples of `%f`, as `printf` of glibc writes them -/
theorem C76_fixed_samples : Print.fixed (1 / 10) = "0.100000".toList ∧ Print.fixed (-5 / 2) = "-2.500000".toList ∧ Print.fixed (12345678 + 1 / 3) = "12345678.333333".toList ∧
    Print.fixed (1 / 3000000) = "0.000000".toList ∧ Print.fixed (-1 / 3000000) = "-0.000000".toList ∧ Print.fixed (9999999 / 10 ^ 7) = "1.000000".toList := by
  decide +kernel

/-- C76. Samples of `%g`; whether there is an exponent depends on the rounded number, and is decided as in the standard: below `10 ^ -4`, and from `10 ^ 6` on -/
theorem C76_general_samples : Print.general (1 / 10) = "0.1".toList ∧ Print.general (-5 / 2) = "-2.5".toList ∧ Print.general 100000 = "100000".toList ∧
    Print.general (10 ^ 6) = "1e+06".toList ∧ Print.general 1234567 = "1.23457e+06".toList ∧ Print.general (1 / 10 ^ 4) = "0.0001".toList ∧
    Print.general (1 / 10 ^ 5) = "1e-05".toList ∧ Print.general (2 / 3) = "0.666667".toList ∧ Print.general (1999999 / 2) = "1e+06".toList ∧
    Print.general (-(10 ^ 100)) = "-1e+100".toList ∧ Print.general (200 / 3) = "66.6667".toList := by
  decide +kernel

/-! ### prettyPrint -/

/-- The text `s` is the decimal `q` with six digits after the point. -/
def IsDecimal (s : List Char) (q : ℚ) : Prop :=
  ∃ (neg : Bool) (a b : List Char), s = (if neg then ['-'] else []) ++ (a ++ '.' :: b) ∧ a ≠ [] ∧ b.length = 6 ∧
    (∀ c ∈ a, c.isDigit = true) ∧ (∀ c ∈ b, c.isDigit = true) ∧
    q = (if neg then -1 else 1) * ((Nat.ofDigitChars 10 (a ++ b) 0 : Nat) : ℚ) / 10 ^ 6

example : IsDecimal "-2.500000".toList (-5 / 2) :=
  ⟨true, ['2'], "500000".toList, by decide, by decide, by decide, by decide, by decide, by
    rw [show Nat.ofDigitChars 10 (['2'] ++ "500000".toList) 0 = 2500000 from by decide]; norm_num⟩

theorem toList_nat (n : Nat) : (toString n).toList = Nat.toDigits 10 n := by
  show (Nat.repr n).toList = _
  simp [Nat.repr]

theorem ofDigitChars_lt : ∀ {l : List Char}, (∀ c ∈ l, c.isDigit = true) → Nat.ofDigitChars 10 l 0 < 10 ^ l.length
  | [], _ => by simp
  | c :: l, h => by
    have ih := ofDigitChars_lt (fun z hz => h z (List.mem_cons_of_mem _ hz))
    have hc : c.toNat - '0'.toNat ≤ 9 := by
      have h1 := h c List.mem_cons_self
      rw [Char.isDigit_iff_toNat] at h1
      have : '0'.toNat = 48 := rfl
      have : '9'.toNat = 57 := rfl
      omega
    rw [Nat.ofDigitChars_cons, Nat.ofDigitChars_eq_ofDigitChars_zero, List.length_cons, pow_succ]
    have := Nat.mul_le_mul_left (10 ^ l.length) (show 10 * 0 + (c.toNat - '0'.toNat) ≤ 9 by omega)
    omega

theorem padded_spec {d n : Nat} (hd : n < 10 ^ d) : (Print.padded d n).length = d ∧ (∀ c ∈ Print.padded d n, c.isDigit = true) ∧
    Nat.ofDigitChars 10 (Print.padded d n) 0 = n := by
  have e := toList_nat (10 ^ d + n)
  have hv := Nat.ofDigitChars_ten_toDigits (n := 10 ^ d + n)
  have hg := Gen.digits_nat (10 ^ d + n)
  have hl : (Nat.toDigits 10 (10 ^ d + n)).length = d + 1 := by
    have h1 : (Nat.toDigits 10 (10 ^ d + n)).length ≤ d + 1 := (Nat.length_toDigits_le_iff (by decide) (by omega)).2 (by rw [pow_succ]; omega)
    have h2 : ¬ (Nat.toDigits 10 (10 ^ d + n)).length ≤ d := by
      intro hc
      rcases Nat.eq_zero_or_pos d with rfl | hp
      · have := Nat.length_toDigits_pos (b := 10) (n := 10 ^ 0 + n); omega
      · have := (Nat.length_toDigits_le_iff (by decide) hp).1 hc; omega
    omega
  unfold Print.padded
  rw [← e] at hv hl
  cases hs : (toString (10 ^ d + n)).toList with
  | nil => rw [hs] at hl; simp at hl
  | cons c l =>
    rw [hs] at hv hl hg
    have hl' : l.length = d := by simpa using hl
    have hgl : ∀ z ∈ l, z.isDigit = true := fun z hz => hg z (List.mem_cons_of_mem _ hz)
    refine ⟨hl', hgl, ?_⟩
    show Nat.ofDigitChars 10 l 0 = n
    have hlt := ofDigitChars_lt hgl
    rw [Nat.ofDigitChars_cons, Nat.ofDigitChars_eq_ofDigitChars_zero, hl'] at hv
    rw [hl'] at hlt
    generalize 10 * 0 + (c.toNat - '0'.toNat) = k at hv
    rcases Nat.lt_or_ge k 1 with hk | hk
    · obtain rfl : k = 0 := by omega
      omega
    · rcases Nat.lt_or_ge 1 k with hk' | hk'
      · have := Nat.mul_le_mul_left (10 ^ d) (show 2 ≤ k from hk')
        omega
      · obtain rfl : k = 1 := by omega
        omega

/-- the text determines the decimal -/
theorem IsDecimal.unique {s : List Char} {q r : ℚ} (hq : IsDecimal s q) (hr : IsDecimal s r) : q = r := by
  obtain ⟨n, a, b, h1, ha, -, da, db, rfl⟩ := hq
  obtain ⟨m, a', b', h2, ha', -, da', db', rfl⟩ := hr
  have ne : ∀ (a b t : List Char), a ≠ [] → (∀ c ∈ a, c.isDigit = true) → a ++ '.' :: b ≠ '-' :: t := by
    intro a b t h0 h h'
    cases a with
    | nil => exact h0 rfl
    | cons c l =>
      have := h c List.mem_cons_self
      simp only [List.cons_append, List.cons.injEq] at h'
      rw [h'.1] at this
      exact absurd this (by decide)
  rw [h1] at h2
  cases n <;> cases m <;> simp only [Bool.false_eq_true, if_false, if_true, List.nil_append, List.cons_append, List.cons.injEq, true_and] at h2
  · obtain ⟨rfl, rfl⟩ := Gen.point_cancel da da' h2; rfl
  · exact absurd h2 (ne _ _ _ ha da)
  · exact absurd h2.symm (ne _ _ _ ha' da')
  · obtain ⟨rfl, rfl⟩ := Gen.point_cancel da da' h2; rfl

theorem fixed_near (x : ℚ) : ∃ q, IsDecimal (Print.fixed x) q ∧ |q - x| ≤ 1 / 2 / 10 ^ 6 := by
  have h0 : 0 ≤ nearest (|x| * 10 ^ 6) := le_nearest (by push_cast; positivity)
  obtain ⟨n, hn⟩ := Int.eq_ofNat_of_zero_le h0
  have hle := nearest_le (|x| * 10 ^ 6)
  rw [hn] at hle
  obtain ⟨h1, h2, h3⟩ := padded_spec (d := 6) (n := n % 10 ^ 6) (Nat.mod_lt _ (by norm_num))
  have hval : Nat.ofDigitChars 10 ((toString (n / 10 ^ 6)).toList ++ Print.padded 6 (n % 10 ^ 6)) 0 = n := by
    rw [Nat.ofDigitChars_append, Nat.ofDigitChars_eq_ofDigitChars_zero, h1, h3, toList_nat, Nat.ofDigitChars_ten_toDigits]
    exact Nat.div_add_mod n _
  refine ⟨(if decide (x < 0) then -1 else 1) * (n : ℚ) / 10 ^ 6, ⟨decide (x < 0), (toString (n / 10 ^ 6)).toList, Print.padded 6 (n % 10 ^ 6), ?_, ?_, h1,
    Gen.digits_nat _, h2, ?_⟩, ?_⟩
  · unfold Print.fixed Print.sign
    rw [hn]
    simp
  · rw [toList_nat]
    intro h
    have := Nat.length_toDigits_pos (b := 10) (n := n / 10 ^ 6)
    rw [h] at this
    simp at this
  · rw [hval]
  · have hle' : |(n : ℚ) - |x| * 10 ^ 6| ≤ 1 / 2 := by rw [abs_sub_comm]; exact_mod_cast hle
    rw [abs_le] at hle' ⊢
    by_cases hx : x < 0
    · rw [abs_of_neg hx] at hle'
      simp only [hx, decide_true, if_true]
      constructor <;> linarith [hle'.1, hle'.2]
    · rw [abs_of_nonneg (not_lt.1 hx)] at hle'
      simp only [hx, decide_false, Bool.false_eq_true, if_false]
      constructor <;> linarith [hle'.1, hle'.2]

/-- what `prettyPrint` makes of a finite number is a decimal at most half a millionth away -/
theorem C76_pretty_near {f : Format} (x : ℚ) : ∃ q, IsDecimal (Wrapped.prettyPrint (f := f) ⟨.ofRat f x⟩).toList q ∧ |q - x| ≤ 1 / 2 / 10 ^ 6 := by
  obtain ⟨q, h1, h2⟩ := fixed_near x
  exact ⟨q, by simpa [Wrapped.prettyPrint, Print.text, Flt.ofRat] using h1, h2⟩

theorem fixed_same {x y : ℚ} (h : Print.fixed x = Print.fixed y) : |x - y| ≤ 1 / 10 ^ 6 := by
  obtain ⟨q, h1, h2⟩ := fixed_near x
  obtain ⟨r, h3, h4⟩ := fixed_near y
  rw [h] at h1
  obtain rfl := h1.unique h3
  rw [abs_le] at *
  constructor <;> linarith [h2.1, h2.2, h4.1, h4.2]

theorem IsDecimal.not {s : List Char} {q : ℚ} (h : IsDecimal s q) : s ≠ "inf".toList ∧ s ≠ "-inf".toList ∧ s ≠ "nan".toList := by
  obtain ⟨n, a, b, rfl, -, -, -, -, -⟩ := h
  have hp : '.' ∈ (if n then ['-'] else []) ++ (a ++ '.' :: b) := by simp
  refine ⟨fun h => ?_, fun h => ?_, fun h => ?_⟩ <;> rw [h] at hp <;> exact absurd hp (by decide)

theorem diff_small {z : ℚ} (h : |z| ≤ 1 / 10 ^ 6) : ∃ w, binary64.result z = .fin w ∧ |w| ≤ 2 / 10 ^ 6 := by
  have h2 : |binary64.round z| ≤ 2 / 10 ^ 6 := by
    have h1 := binary64.round_best z 0
    simp only [Int.cast_zero, zero_mul, sub_zero] at h1
    have h3 := abs_le.1 (h1.trans h)
    have h4 := abs_le.1 h
    rw [abs_le]
    constructor <;> linarith [h3.1, h3.2, h4.1, h4.2]
  refine ⟨_, ?_, h2⟩
  have h3 : (1 : ℚ) ≤ pow2 binary64.emax := by decide +kernel
  have h4 := abs_le.1 h2
  unfold result
  dsimp only
  rw [if_neg (by linarith [h4.2]), if_neg (by linarith [h4.1])]

/-- Two numbers, also infinities and NaN, with the same text are equal for `==`; if they are finite, they differ by a millionth at most. -/
theorem C76_same_text_equal (a b : Wrapped (Flt binary64)) (h : a.prettyPrint = b.prettyPrint) :
    Wrapped.eq a b = true ∧ ∀ x y, a.value.val = .fin x → b.value.val = .fin y → |x - y| ≤ 1 / 10 ^ 6 := by
  obtain ⟨⟨a⟩⟩ := a
  obtain ⟨⟨b⟩⟩ := b
  have h : Print.text Print.fixed a = Print.text Print.fixed b := String.ofList_injective h
  have key : ∀ x y, a = .fin x → b = .fin y → |x - y| ≤ 1 / 10 ^ 6 := by
    rintro x y rfl rfl
    exact fixed_same h
  refine ⟨?_, key⟩
  have no : ∀ x, Print.fixed x ≠ "inf".toList ∧ Print.fixed x ≠ "-inf".toList ∧ Print.fixed x ≠ "nan".toList := fun x =>
    (fixed_near x).choose_spec.1.not
  cases a with
  | fin x =>
    cases b with
    | fin y =>
      obtain ⟨w, hw, hw'⟩ := diff_small (z := x + -y) (by rw [← sub_eq_add_neg]; exact key x y rfl rfl)
      have e : (⟨.fin x⟩ - ⟨.fin y⟩ : Flt binary64) = ⟨.fin w⟩ := congrArg Flt.mk hw
      have he : binary64.result (1 / 10000) = .fin (binary64.round (1 / 10000)) ∧ (2 : ℚ) / 10 ^ 6 ≤ binary64.round (1 / 10000) := by decide +kernel
      unfold Wrapped.eq
      dsimp only
      rw [e, Bool.not_eq_true', decide_eq_false_iff_not]
      show ¬ Dbl.lt (binary64.result (1 / 10000)) _
      rw [he.1]
      show ¬ binary64.round (1 / 10000) < max w (-w)
      exact not_lt.2 (le_trans hw' he.2)
    | pinf => exact absurd h (no x).1
    | ninf => exact absurd h (no x).2.1
    | nan => exact absurd h (no x).2.2
  | pinf =>
    cases b with
    | fin y => exact absurd h.symm (no y).1
    | pinf => decide +kernel
    | ninf => exact absurd h (by decide)
    | nan => exact absurd h (by decide)
  | ninf =>
    cases b with
    | fin y => exact absurd h.symm (no y).2.1
    | pinf => exact absurd h (by decide)
    | ninf => decide +kernel
    | nan => exact absurd h (by decide)
  | nan =>
    cases b with
    | fin y => exact absurd h.symm (no y).2.2
    | pinf => exact absurd h (by decide)
    | ninf => exact absurd h (by decide)
    | nan => decide +kernel

/-- the hypothesis holds for two different numbers -/
example : (wrap binary64 (binary64.round (1 / 10))).prettyPrint = (wrap binary64 (binary64.round (1 / 10) + 1 / 2 ^ 30)).prettyPrint := by decide +kernel

/-- Numbers which are equal for `==` can have different texts. -/
theorem C76_equal_different_text : ∃ x y : ℚ, binary64.result x = .fin x ∧ binary64.result y = .fin y ∧
    Wrapped.eq (wrap binary64 x) (wrap binary64 y) = true ∧
    (wrap binary64 x).prettyPrint = "0.000000" ∧ (wrap binary64 y).prettyPrint = "0.000050" :=
  ⟨0, binary64.round (1 / 20000), by decide +kernel⟩

/-! ### operator<< -/

/-- The text `s` is the number `q`, written with at most six significant digits, without zeros at the end of the fraction, and perhaps with a power of ten, whose exponent has a sign and two digits at
least. -/
def IsShort (s : List Char) (q : ℚ) : Prop :=
  ∃ (neg : Bool) (a b t : List Char) (e : Int),
    s = (if neg then ['-'] else []) ++ (a ++ (if b = [] then [] else '.' :: b) ++ t) ∧ a ≠ [] ∧
    (∀ c ∈ a, c.isDigit = true) ∧ (∀ c ∈ b, c.isDigit = true) ∧ b.getLast? ≠ some '0' ∧ ((a ++ b).dropWhile (· == '0')).length ≤ 6 ∧
    (t = [] ∧ e = 0 ∨ ∃ d, 2 ≤ d.length ∧ (∀ c ∈ d, c.isDigit = true) ∧
      (t = 'e' :: '+' :: d ∧ e = Nat.ofDigitChars 10 d 0 ∨ t = 'e' :: '-' :: d ∧ e = -(Nat.ofDigitChars 10 d 0 : Int))) ∧
    q = (if neg then -1 else 1) * (((Nat.ofDigitChars 10 (a ++ b) 0 : Nat) : ℚ) / 10 ^ b.length * 10 ^ e)

example : IsShort "-1.25e-07".toList (-125 / 10 ^ 9) :=
  ⟨true, ['1'], "25".toList, "e-07".toList, -7, by decide, by decide, by decide, by decide, by decide, by decide,
    .inr ⟨"07".toList, by decide, by decide, .inr (by decide)⟩, by
    rw [show Nat.ofDigitChars 10 (['1'] ++ "25".toList) 0 = 125 from by decide, show ("25".toList : List Char).length = 2 from by decide]; norm_num [zpow_neg]⟩

theorem strip_spec {a : List Char} (b : List Char) (hb : ∀ c ∈ b, c.isDigit = true) : ∃ b' k, b = b' ++ List.replicate k '0' ∧
    Print.strip (a ++ '.' :: b) = a ++ (if b' = [] then [] else '.' :: b') ∧ b'.getLast? ≠ some '0' := by
  induction b using List.reverseRecOn with
  | nil => exact ⟨[], 0, by simp, by simp [Print.strip], by simp⟩
  | append_singleton b c ih =>
    by_cases hc : c = '0'
    · subst hc
      obtain ⟨b', k, h1, h2, h3⟩ := ih fun z hz => hb z (List.mem_append_left _ hz)
      refine ⟨b', k + 1, ?_, ?_, h3⟩
      · rw [List.replicate_succ', ← List.append_assoc, ← h1]
      · rw [← h2]
        simp [Print.strip]
    · have hd : c ≠ '.' := by
        rintro rfl
        exact absurd (hb '.' (by simp)) (by decide)
      refine ⟨b ++ [c], 0, by simp, ?_, by simpa using hc⟩
      have : ((a ++ '.' :: (b ++ [c])).reverse.dropWhile (· == '0')) = c :: (a ++ '.' :: b).reverse := by
        simp [hc]
      unfold Print.strip
      rw [this]
      simp only
      split
      · rename_i h
        simp only [List.cons.injEq] at h
        exact absurd h.1 hd
      · simp

theorem ofDigitChars_zeros : ∀ k, Nat.ofDigitChars 10 (List.replicate k '0') 0 = 0
  | 0 => rfl
  | k + 1 => by
    rw [List.replicate_succ, Nat.ofDigitChars_cons]
    exact ofDigitChars_zeros k

theorem dropZeros_le {D : List Char} : ∀ {n : Nat} {l : List Char}, l <+: List.replicate n '0' ++ D → (l.dropWhile (· == '0')).length ≤ D.length
  | 0, l, h => ((List.dropWhile_suffix _).length_le).trans (by simpa using h.length_le)
  | n + 1, [], _ => by simp
  | n + 1, c :: l, h => by
    rw [List.replicate_succ, List.cons_append, List.cons_prefix_cons] at h
    obtain ⟨rfl, h⟩ := h
    simpa using dropZeros_le h

/-- the digits before and after the point, of which the zeros at the end are removed -/
theorem strip_value {a b D : List Char} {n : Nat} (hb : ∀ c ∈ b, c.isDigit = true)
    (hD : a ++ b = List.replicate n '0' ++ D) (hl : D.length = 6) : ∃ b', Print.strip (a ++ '.' :: b) = a ++ (if b' = [] then [] else '.' :: b') ∧
    (∀ c ∈ b', c.isDigit = true) ∧ b'.getLast? ≠ some '0' ∧ ((a ++ b').dropWhile (· == '0')).length ≤ 6 ∧
    ((Nat.ofDigitChars 10 (a ++ b') 0 : Nat) : ℚ) / 10 ^ b'.length = (Nat.ofDigitChars 10 D 0 : Nat) / 10 ^ b.length := by
  obtain ⟨b', k, rfl, h2, h3⟩ := strip_spec (a := a) b hb
  refine ⟨b', h2, fun c hc => hb c (List.mem_append_left _ hc), h3, ?_, ?_⟩
  · rw [← hl]
    refine dropZeros_le (n := n) ?_
    rw [← hD, ← List.append_assoc]
    exact List.prefix_append _ _
  · have h4 : Nat.ofDigitChars 10 D 0 = 10 ^ k * Nat.ofDigitChars 10 (a ++ b') 0 := by
      have e : Nat.ofDigitChars 10 (a ++ (b' ++ List.replicate k '0')) 0 = Nat.ofDigitChars 10 (List.replicate n '0' ++ D) 0 := by rw [hD]
      rw [Nat.ofDigitChars_append (l := List.replicate n '0'), ofDigitChars_zeros, ← List.append_assoc, Nat.ofDigitChars_append,
        Nat.ofDigitChars_eq_ofDigitChars_zero, ofDigitChars_zeros, List.length_replicate] at e
      omega
    rw [h4, List.length_append, List.length_replicate, pow_add]
    push_cast
    field_simp

theorem general_near {x : ℚ} (hx : x ≠ 0) : ∃ q, IsShort (Print.general x) q ∧ |q - x| ≤ 10 ^ (Int.log 10 |x| - 5) / 2 := by
  have hx' : 0 < |x| := abs_pos.2 hx
  have l1 := Int.zpow_log_le_self (b := 10) (by norm_num) hx'
  have l2 := Int.lt_zpow_succ_log_self (b := 10) (by norm_num) |x|
  unfold Print.general
  rw [if_neg hx]
  dsimp only
  generalize Int.log 10 |x| = e₀ at *
  have hp : (0 : ℚ) < 10 ^ (e₀ - 5) := zpow_pos (by norm_num) _
  have y1 : (10 ^ 5 : ℚ) ≤ |x| / 10 ^ (e₀ - 5) := by
    rw [le_div_iff₀ hp, ← zpow_natCast, ← zpow_add₀ (by norm_num)]
    simpa using l1
  have y2 : |x| / 10 ^ (e₀ - 5) ≤ (10 ^ 6 : ℚ) := by
    rw [div_le_iff₀ hp, ← zpow_natCast, ← zpow_add₀ (by norm_num), show ((6 : Nat) : Int) + (e₀ - 5) = e₀ + 1 by push_cast; ring]
    exact_mod_cast l2.le
  have hle := nearest_le (|x| / 10 ^ (e₀ - 5))
  have n1 : (10 ^ 5 : Int) ≤ nearest (|x| / 10 ^ (e₀ - 5)) := le_nearest (by push_cast; exact y1)
  have n2 : nearest (|x| / 10 ^ (e₀ - 5)) ≤ (10 ^ 6 : Int) := nearest_le' (by push_cast; exact y2)
  obtain ⟨m₀, hm⟩ := Int.eq_ofNat_of_zero_le (le_trans (by norm_num) n1)
  rw [hm] at hle n1 n2
  rw [hm, Int.toNat_natCast]
  have key : |(m₀ : ℚ) * 10 ^ (e₀ - 5) - (|x|)| ≤ 10 ^ (e₀ - 5) / 2 := by
    have : (m₀ : ℚ) * 10 ^ (e₀ - 5) - |x| = -((|x| / 10 ^ (e₀ - 5) - m₀) * 10 ^ (e₀ - 5)) := by
      field_simp
      ring
    rw [this, abs_neg, abs_mul, abs_of_pos hp]
    have : |(|x| / 10 ^ (e₀ - 5) - (m₀ : ℚ))| ≤ 1 / 2 := by exact_mod_cast hle
    nlinarith
  obtain ⟨m, e, hme, m1, m2, hv⟩ : ∃ (m : Nat) (e : Int), (if m₀ = 10 ^ 6 then (10 ^ 5, e₀ + 1) else (m₀, e₀)) = (m, e) ∧ 10 ^ 5 ≤ m ∧ m < 10 ^ 6 ∧
      (m : ℚ) * 10 ^ (e - 5) = m₀ * 10 ^ (e₀ - 5) := by
    by_cases h : m₀ = 10 ^ 6
    · refine ⟨_, _, if_pos h, le_rfl, by norm_num, ?_⟩
      rw [h, show e₀ + 1 - 5 = (e₀ - 5) + 1 by ring, zpow_add₀ (by norm_num)]
      push_cast
      ring
    · exact ⟨_, _, if_neg h, by exact_mod_cast n1, lt_of_le_of_ne (by exact_mod_cast n2) h, rfl⟩
  rw [hme]
  dsimp only
  rw [← hv] at key
  have hD := toList_nat m
  have hdig := Gen.digits_nat m
  have hval := Nat.ofDigitChars_ten_toDigits (n := m)
  have hlen : (Nat.toDigits 10 m).length = 6 := by
    have h1 : (Nat.toDigits 10 m).length ≤ 6 := (Nat.length_toDigits_le_iff (by decide) (by decide)).2 m2
    have h2 : ¬ (Nat.toDigits 10 m).length ≤ 5 := by
      rw [Nat.length_toDigits_le_iff (by decide) (by decide)]
      omega
    omega
  rw [← hD] at hval hlen
  generalize (toString m).toList = D at *
  have near : |(if decide (x < 0) then -1 else 1) * ((m : ℚ) * 10 ^ (e - 5)) - x| ≤ 10 ^ (e₀ - 5) / 2 := by
    by_cases h : x < 0
    · rw [abs_of_neg h] at key
      simp only [h, decide_true, if_true]
      rw [← abs_neg]
      convert key using 2
      ring
    · rw [abs_of_nonneg (not_lt.1 h)] at key
      simpa [h] using key
  refine ⟨_, ?_, near⟩
  have sg : Print.sign x = if decide (x < 0) then ['-'] else [] := by simp [Print.sign]
  have pw : ∀ k : Nat, ∀ z : Int, z - k = e - 5 → (m : ℚ) / 10 ^ k * 10 ^ z = m * 10 ^ (e - 5) := by
    intro k z h
    rw [← h, zpow_sub₀ (by norm_num), zpow_natCast]
    ring
  have tk : ∀ i, (∀ c ∈ D.take i, c.isDigit = true) ∧ ∀ c ∈ D.drop i, c.isDigit = true := fun i =>
    ⟨fun c hc => hdig c (List.mem_of_mem_take hc), fun c hc => hdig c (List.mem_of_mem_drop hc)⟩
  have ne : ∀ i, D.take (i + 1) ≠ [] := fun i h => by
    have := congrArg List.length h
    simp [hlen] at this
  split
  · obtain ⟨b', s1, s2, s3, s4, s5⟩ := strip_value (n := 0) (tk 1).2 (List.take_append_drop 1 D) hlen
    rw [hval, List.length_drop, hlen] at s5
    obtain ⟨d, d1, d2, d3, d4⟩ : ∃ d, 2 ≤ d.length ∧ (∀ c ∈ d, c.isDigit = true) ∧ Nat.ofDigitChars 10 d 0 = e.natAbs ∧
        (if e.natAbs < 10 then Print.padded 2 e.natAbs else (toString e.natAbs).toList) = d := by
      by_cases h : e.natAbs < 10
      · obtain ⟨h1, h2, h3⟩ := padded_spec (d := 2) (n := e.natAbs) (by omega)
        exact ⟨_, h1.ge, h2, h3, if_pos h⟩
      · refine ⟨_, ?_, Gen.digits_nat _, ?_, if_neg h⟩
        · rw [toList_nat]
          have : ¬ (Nat.toDigits 10 e.natAbs).length ≤ 1 := by
            rw [Nat.length_toDigits_le_iff (by decide) (by decide)]
            omega
          omega
        · rw [toList_nat, Nat.ofDigitChars_ten_toDigits]
    rw [d4]
    refine ⟨decide (x < 0), D.take 1, b', 'e' :: (if e < 0 then '-' else '+') :: d, e, ?_, ne 0, (tk 1).1, s2, s3, s4, .inr ⟨d, d1, d2, ?_⟩, ?_⟩
    · rw [sg, s1]
    · rw [d3]
      by_cases h : e < 0
      · exact .inr ⟨by rw [if_pos h], by omega⟩
      · exact .inl ⟨by rw [if_neg h], by omega⟩
    · rw [s5, pw _ _ (by norm_num)]
  · rename_i h1
    split
    · rename_i h2
      have hz : ∀ c ∈ List.replicate (e.natAbs - 1) '0' ++ D, c.isDigit = true := by
        intro c hc
        rcases List.mem_append.1 hc with h | h
        · rw [(List.mem_replicate.1 h).2]; decide
        · exact hdig c h
      obtain ⟨b', s1, s2, s3, s4, s5⟩ := strip_value (a := ['0']) (n := e.natAbs - 1 + 1) hz
        (by rw [List.replicate_succ]; rfl) hlen
      rw [hval, List.length_append, List.length_replicate, hlen] at s5
      refine ⟨decide (x < 0), ['0'], b', [], 0, ?_, by decide, by decide, s2, s3, s4, .inl ⟨rfl, rfl⟩, ?_⟩
      · rw [sg, List.append_nil, ← s1]
        rfl
      · rw [s5, pw _ _ (by omega)]
    · rename_i h2
      obtain ⟨b', s1, s2, s3, s4, s5⟩ := strip_value (n := 0) (tk (e.toNat + 1)).2 (List.take_append_drop _ D) hlen
      rw [hval, List.length_drop, hlen] at s5
      refine ⟨decide (x < 0), D.take (e.toNat + 1), b', [], 0, ?_, ne _, (tk _).1, s2, s3, s4, .inl ⟨rfl, rfl⟩, ?_⟩
      · rw [sg, s1, List.append_nil]
      · rw [s5, pw _ _ (by omega)]

/-- What `operator<<` writes for a finite number is a number with six significant digits at most; the distance is at most half of the unit of the sixth digit of the number. -/
theorem C76_output_near {f : Format} (x : ℚ) : ∃ q, IsShort (Wrapped.output (f := f) ⟨.ofRat f x⟩).toList q ∧
    (∀ e : Int, 10 ^ e ≤ |x| → |x| < 10 ^ (e + 1) → |q - x| ≤ 10 ^ (e - 5) / 2) ∧ |q - x| ≤ |x| / 200000 := by
  have e : (Wrapped.output (f := f) ⟨.ofRat f x⟩).toList = Print.general x := by simp [Wrapped.output, Print.text, Flt.ofRat]
  rw [e]
  by_cases hx : x = 0
  · subst hx
    refine ⟨0, ⟨false, ['0'], [], [], 0, by decide +kernel, by decide, by decide, by decide, by decide, by decide, .inl ⟨rfl, rfl⟩, ?_⟩, fun e _ _ => ?_, by simp⟩
    · rw [show Nat.ofDigitChars 10 (['0'] ++ []) 0 = 0 from rfl]; simp
    · simp only [sub_self, abs_zero]; exact div_nonneg (zpow_nonneg (by norm_num) _) (by norm_num)
  · obtain ⟨q, h1, h2⟩ := general_near hx
    have hx' : 0 < |x| := abs_pos.2 hx
    have l1 := Int.zpow_log_le_self (b := 10) (by norm_num) hx'
    have l2 := Int.lt_zpow_succ_log_self (b := 10) (by norm_num) |x|
    refine ⟨q, h1, fun e e1 e2 => ?_, h2.trans ?_⟩
    · have a1 : e < Int.log 10 |x| + 1 := (zpow_lt_zpow_iff_right₀ (by norm_num : (1 : ℚ) < 10)).1 (e1.trans_lt (by exact_mod_cast l2))
      have a2 : Int.log 10 |x| < e + 1 := (zpow_lt_zpow_iff_right₀ (by norm_num : (1 : ℚ) < 10)).1 (lt_of_le_of_lt (by exact_mod_cast l1) e2)
      rw [show e = Int.log 10 |x| by omega]
      exact h2
    · rw [zpow_sub₀ (by norm_num)]
      have l1 : (10 : ℚ) ^ Int.log 10 |x| ≤ |x| := by exact_mod_cast l1
      norm_num
      linarith

/-- for 2/3, which is written `0.666667` -/
example : (10 : ℚ) ^ (-1 : Int) ≤ |2 / 3| ∧ |(2 / 3 : ℚ)| < 10 ^ (-1 + 1 : Int) := by
  rw [abs_of_pos (by norm_num)]
  norm_num

/-- `operator<<` writes six significant digits: numbers which differ, also for the tolerant `==` and `<` and for `prettyPrint`, are written
alike. -/
theorem C76_output_alike : ∃ x y : ℚ, binary64.result x = .fin x ∧ binary64.result y = .fin y ∧
    Wrapped.eq (wrap binary64 x) (wrap binary64 y) = false ∧ Wrapped.lt (wrap binary64 x) (wrap binary64 y) = true ∧
    (wrap binary64 x).prettyPrint ≠ (wrap binary64 y).prettyPrint ∧
    (wrap binary64 x).output = "1.23457e+06" ∧ (wrap binary64 y).output = "1.23457e+06" :=
  ⟨1234567, 1234568, by decide +kernel⟩

end AHO.Props
