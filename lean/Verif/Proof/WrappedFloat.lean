import Verif.Proof.Rounding
/-!
# Comparisons of `WrappedDouble` without errors

Between multiples of `2 ^ j` the tolerance makes no difference, if it is smaller than `2 ^ j` by more than rounding can move the
bound.
-/

namespace AHO
open Spec

namespace Format

theorem le_nearest {q : ℚ} {m : Int} (h : (m : ℚ) ≤ q) : m ≤ nearest q := by
  have h1 := Int.le_floor.2 h
  unfold nearest
  dsimp only
  split_ifs <;> omega

theorem nearest_le' {q : ℚ} {m : Int} (h : q ≤ (m : ℚ)) : nearest q ≤ m := by
  have h1 := nearest_le q
  by_contra hc
  have h2 : (m : ℚ) + 1 ≤ nearest q := by exact_mod_cast (not_le.1 hc)
  have := (abs_le.1 h1).1
  linarith

theorem mul_pow2_down {k d i : Int} (h : d ≤ i) : (k : ℚ) * pow2 i = ((k * 2 ^ (i - d).toNat : Int) : ℚ) * pow2 d := by
  have e : i = ((i - d).toNat : Int) + d := by omega
  conv_lhs => rw [e, pow2_add, pow2_nat]
  push_cast; ring

/-- rounding does not pass a multiple of the last digit -/
theorem le_round {f : Format} {x : ℚ} {k i : Int} (hd : f.lastDigit x ≤ i) (h : k * pow2 i ≤ x) : k * pow2 i ≤ f.round x := by
  rw [mul_pow2_down hd] at h ⊢
  rw [round_eq]
  refine mul_le_mul_of_nonneg_right ?_ (pow2_pos _).le
  exact_mod_cast le_nearest (by rw [units, le_div_iff₀ (pow2_pos _)]; exact h)

theorem round_le {f : Format} {x : ℚ} {k i : Int} (hd : f.lastDigit x ≤ i) (h : x ≤ k * pow2 i) : f.round x ≤ k * pow2 i := by
  rw [mul_pow2_down hd] at h ⊢
  rw [round_eq]
  refine mul_le_mul_of_nonneg_right ?_ (pow2_pos _).le
  exact_mod_cast nearest_le' (by rw [units, div_le_iff₀ (pow2_pos _)]; exact h)

theorem lastDigit_le {f : Format} {x : ℚ} {i : Int} (hx : x ≠ 0) (hi : f.emin ≤ i) (h : |x| < 2 ^ f.p * pow2 i) : f.lastDigit x ≤ i := by
  refine max_le ?_ hi
  have h1 := expo_le hx
  rw [← pow2_nat, ← pow2_add] at h
  have := pow2_lt.1 (h1.trans_lt h)
  omega

end Format

open Format

section
variable {f : Format} {j i : Int} (hp : 1 ≤ f.p) (hi : f.emin ≤ i) (hij : i < j) (hji : j ≤ f.p + i) (hm : f.p + j ≤ f.emax)
  (h0 : 0 < f.round (1 / 10000)) (h1 : f.round (1 / 10000) ≤ pow2 j - pow2 i)

/-- the values for which the comparisons are exact -/
def Fine (f : Format) (j i : Int) (x : ℚ) : Prop := x ∈ AddSubgroup.zmultiples (pow2 j) ∧ |x| < 2 ^ f.p * pow2 i

theorem lattice_gap {a b : ℚ} (ha : a ∈ AddSubgroup.zmultiples (pow2 j)) (hb : b ∈ AddSubgroup.zmultiples (pow2 j)) (h : a < b) :
    a + pow2 j ≤ b := by
  obtain ⟨k, rfl⟩ := AddSubgroup.mem_zmultiples_iff.1 ha
  obtain ⟨m, rfl⟩ := AddSubgroup.mem_zmultiples_iff.1 hb
  rw [zsmul_eq_mul, zsmul_eq_mul] at *
  have h2 : (k : ℚ) < m := lt_of_mul_lt_mul_right h (pow2_pos j).le
  have h3 : (k : ℚ) + 1 ≤ m := by exact_mod_cast h2
  have := mul_le_mul_of_nonneg_right h3 (pow2_pos j).le
  linarith

include hij in
theorem Fine.small (hp : 1 ≤ f.p) {x : ℚ} (h : Fine f j i x) : |x| < 2 ^ (f.p - 1) * pow2 j := by
  refine h.2.trans_le ?_
  rw [← pow2_nat, ← pow2_nat, ← pow2_add, ← pow2_add]
  exact pow2_le.2 (by omega)

include hij hji in
theorem Fine.room {a : ℚ} (h : Fine f j i a) : |a| + pow2 j ≤ 2 ^ f.p * pow2 i := by
  have hB : (2 : ℚ) ^ f.p * pow2 i ∈ AddSubgroup.zmultiples (pow2 j) := by
    refine AddSubgroup.mem_zmultiples_iff.2 ⟨2 ^ (f.p + i - j).toNat, ?_⟩
    have e : (f.p : Int) + i = ((f.p + i - j).toNat : Int) + j := by omega
    rw [← pow2_nat, ← pow2_add, e, pow2_add, pow2_nat, zsmul_eq_mul]
    have e' : (((f.p + i - j).toNat : Int) + j - j).toNat = (f.p + i - j).toNat := by omega
    push_cast
    rw [e']
  have ha : |a| ∈ AddSubgroup.zmultiples (pow2 j) := by
    rcases abs_choice a with c | c <;> rw [c]
    · exact h.1
    · exact AddSubgroup.neg_mem _ h.1
  exact lattice_gap ha hB h.2

include hi hij hji hm h0 h1

theorem result_eps : f.result (1 / 10000) = .fin (f.round (1 / 10000)) := by
  have : pow2 j < pow2 f.emax ∨ f.p = 0 ∧ j = f.emax := by
    by_cases h : j < f.emax
    · exact .inl (pow2_lt.2 h)
    · exact .inr (by omega)
  have hb : f.round (1 / 10000) < pow2 f.emax := by
    have := pow2_pos i
    have h2 : pow2 j ≤ pow2 f.emax := pow2_le.2 (by omega)
    linarith
  have := pow2_pos f.emax
  unfold result
  dsimp only
  rw [if_neg (by linarith), if_neg (by linarith)]

/-- moving a bound by the tolerance -/
theorem shift_up {a : ℚ} (h : Fine f j i a) : ∃ y, f.result (a + f.round (1 / 10000)) = .fin y ∧ a ≤ y ∧ y < a + pow2 j := by
  generalize f.round (1 / 10000) = ε at *
  have hr := h.room hij hji
  have hi0 := pow2_pos i
  have hab := abs_le.1 (le_refl |a|)
  obtain ⟨k, rfl⟩ := AddSubgroup.mem_zmultiples_iff.1 h.1
  rw [zsmul_eq_mul] at *
  have hjp : (pow2 j : ℚ) = ((2 ^ (j - i).toNat : Int) : ℚ) * pow2 i := by
    have := mul_pow2_down (k := 1) hij.le
    push_cast at this ⊢
    linarith
  by_cases hx : (k : ℚ) * pow2 j + ε = 0
  · have hk : (k : ℚ) * pow2 j = -ε := by linarith
    exfalso
    have h3 : (k : ℚ) * pow2 j < 0 * pow2 j := by linarith
    have h4 : (k : ℚ) < 0 := lt_of_mul_lt_mul_right h3 (pow2_pos j).le
    have h5 : (k : ℚ) ≤ -1 := by
      have : k < 0 := by exact_mod_cast h4
      exact_mod_cast (by omega : k ≤ -1)
    have := mul_le_mul_of_nonneg_right h5 (pow2_pos j).le
    linarith
  have hlt : |(k : ℚ) * pow2 j + ε| < 2 ^ f.p * pow2 i := by
    rw [abs_lt]; constructor <;> linarith [pow2_pos j]
  have hd := lastDigit_le hx hi hlt
  have e1 : (k : ℚ) * pow2 j = ((k * 2 ^ (j - i).toNat : Int) : ℚ) * pow2 i := mul_pow2_down hij.le
  have l1 := le_round hd (k := k * 2 ^ (j - i).toNat) (by rw [← e1]; linarith)
  have l2 := round_le hd (k := k * 2 ^ (j - i).toNat + 2 ^ (j - i).toNat - 1) (x := (k : ℚ) * pow2 j + ε) (by
    have : (((k * 2 ^ (j - i).toNat + 2 ^ (j - i).toNat - 1 : Int)) : ℚ) * pow2 i = k * pow2 j + (pow2 j - pow2 i) := by
      rw [e1, hjp]; push_cast; ring
    rw [this]; linarith)
  have e2 : (((k * 2 ^ (j - i).toNat + 2 ^ (j - i).toNat - 1 : Int)) : ℚ) * pow2 i = k * pow2 j + (pow2 j - pow2 i) := by
    rw [e1, hjp]; push_cast; ring
  rw [← e1] at l1
  rw [e2] at l2
  have hbig : (2 : ℚ) ^ f.p * pow2 i ≤ pow2 f.emax := by
    rw [← pow2_nat, ← pow2_add]; exact pow2_le.2 (by omega)
  refine ⟨f.round (k * pow2 j + ε), ?_, l1, by linarith⟩
  unfold result
  dsimp only
  rw [if_neg (by linarith), if_neg (by linarith [pow2_pos j])]

theorem shift_down {a : ℚ} (h : Fine f j i a) :
    ∃ y, f.result (a + -f.round (1 / 10000)) = .fin y ∧ a - pow2 j < y ∧ y ≤ a := by
  generalize f.round (1 / 10000) = ε at *
  have hr := h.room hij hji
  have hi0 := pow2_pos i
  have hab := abs_le.1 (le_refl |a|)
  obtain ⟨k, rfl⟩ := AddSubgroup.mem_zmultiples_iff.1 h.1
  rw [zsmul_eq_mul] at *
  have hjp : (pow2 j : ℚ) = ((2 ^ (j - i).toNat : Int) : ℚ) * pow2 i := by
    have := mul_pow2_down (k := 1) hij.le
    push_cast at this ⊢
    linarith
  by_cases hx : (k : ℚ) * pow2 j + -ε = 0
  · exfalso
    have h3 : 0 * pow2 j < (k : ℚ) * pow2 j := by linarith
    have h4 : 0 < (k : ℚ) := lt_of_mul_lt_mul_right h3 (pow2_pos j).le
    have h5 : 1 ≤ (k : ℚ) := by
      have : 0 < k := by exact_mod_cast h4
      exact_mod_cast (by omega : 1 ≤ k)
    have := mul_le_mul_of_nonneg_right h5 (pow2_pos j).le
    linarith
  have hlt : |(k : ℚ) * pow2 j + -ε| < 2 ^ f.p * pow2 i := by
    rw [abs_lt]; constructor <;> linarith [pow2_pos j]
  have hd := lastDigit_le hx hi hlt
  have e1 : (k : ℚ) * pow2 j = ((k * 2 ^ (j - i).toNat : Int) : ℚ) * pow2 i := mul_pow2_down hij.le
  have e2 : (((k * 2 ^ (j - i).toNat - 2 ^ (j - i).toNat + 1 : Int)) : ℚ) * pow2 i = k * pow2 j - (pow2 j - pow2 i) := by
    rw [e1, hjp]; push_cast; ring
  have l1 := round_le hd (k := k * 2 ^ (j - i).toNat) (by rw [← e1]; linarith)
  have l2 := le_round hd (k := k * 2 ^ (j - i).toNat - 2 ^ (j - i).toNat + 1) (x := (k : ℚ) * pow2 j + -ε) (by
    rw [e2]; linarith)
  rw [← e1] at l1
  rw [e2] at l2
  have hbig : (2 : ℚ) ^ f.p * pow2 i ≤ pow2 f.emax := by
    rw [← pow2_nat, ← pow2_add]; exact pow2_le.2 (by omega)
  refine ⟨f.round (k * pow2 j + -ε), ?_, by linarith, l1⟩
  unfold result
  dsimp only
  rw [if_neg (by linarith [pow2_pos j]), if_neg (by linarith [pow2_pos j])]

variable {a b : ℚ} (ha : Fine f j i a) (hb : Fine f j i b)
include ha hb

theorem wrapped_lt : Wrapped.lt (D := Flt f) ⟨.ofRat f a⟩ ⟨.ofRat f b⟩ = true ↔ a < b := by
  obtain ⟨y, y1, y2, y3⟩ := shift_up hi hij hji hm h0 h1 ha
  have e : Flt.ofRat f a + Tolerance.eps = ⟨.fin y⟩ := by
    show Flt.rnd f (Dbl.add (.fin a) (f.result (1 / 10000))) = _
    rw [result_eps hi hij hji hm h0 h1, ← y1]; rfl
  unfold Wrapped.lt
  rw [decide_eq_true_iff]
  dsimp only
  rw [e]
  show y < b ↔ a < b
  exact ⟨fun h => y2.trans_lt h, fun h => y3.trans_le (lattice_gap ha.1 hb.1 h)⟩

theorem wrapped_ge : Wrapped.ge (D := Flt f) ⟨.ofRat f a⟩ ⟨.ofRat f b⟩ = true ↔ b ≤ a := by
  obtain ⟨y, y1, y2, y3⟩ := shift_up hi hij hji hm h0 h1 ha
  have e : Flt.ofRat f a + Tolerance.eps = ⟨.fin y⟩ := by
    show Flt.rnd f (Dbl.add (.fin a) (f.result (1 / 10000))) = _
    rw [result_eps hi hij hji hm h0 h1, ← y1]; rfl
  unfold Wrapped.ge
  rw [decide_eq_true_iff]
  dsimp only
  rw [e]
  show b ≤ y ↔ b ≤ a
  refine ⟨fun h => ?_, fun h => h.trans y2⟩
  by_contra hc
  have := lattice_gap ha.1 hb.1 (not_le.1 hc)
  linarith

theorem wrapped_le : Wrapped.le (D := Flt f) ⟨.ofRat f a⟩ ⟨.ofRat f b⟩ = true ↔ a ≤ b := by
  obtain ⟨y, y1, y2, y3⟩ := shift_down hi hij hji hm h0 h1 ha
  have e : Flt.ofRat f a - Tolerance.eps = ⟨.fin y⟩ := by
    show Flt.rnd f (Dbl.add (.fin a) (Dbl.neg (f.result (1 / 10000)))) = _
    rw [result_eps hi hij hji hm h0 h1, ← y1]; rfl
  unfold Wrapped.le
  rw [decide_eq_true_iff]
  dsimp only
  rw [e]
  show y ≤ b ↔ a ≤ b
  refine ⟨fun h => ?_, fun h => y3.trans h⟩
  by_contra hc
  have := lattice_gap hb.1 ha.1 (not_le.1 hc)
  linarith

theorem wrapped_gt : Wrapped.gt (D := Flt f) ⟨.ofRat f a⟩ ⟨.ofRat f b⟩ = true ↔ b < a := by
  obtain ⟨y, y1, y2, y3⟩ := shift_down hi hij hji hm h0 h1 ha
  have e : Flt.ofRat f a - Tolerance.eps = ⟨.fin y⟩ := by
    show Flt.rnd f (Dbl.add (.fin a) (Dbl.neg (f.result (1 / 10000)))) = _
    rw [result_eps hi hij hji hm h0 h1, ← y1]; rfl
  unfold Wrapped.gt
  rw [decide_eq_true_iff]
  dsimp only
  rw [e]
  show b < y ↔ b < a
  refine ⟨fun h => h.trans_le y3, fun h => ?_⟩
  have := lattice_gap hb.1 ha.1 h
  linarith

include hp

theorem wrapped_eq : Wrapped.eq (D := Flt f) ⟨.ofRat f a⟩ ⟨.ofRat f b⟩ = decide (a = b) := by
  have hpow : (2 : ℚ) ^ f.p = 2 * 2 ^ (f.p - 1) := by
    conv_lhs => rw [← Nat.sub_add_cancel hp]
    rw [pow_succ, mul_comm]
  have hab : a + -b ∈ AddSubgroup.zmultiples (pow2 j) := AddSubgroup.add_mem _ ha.1 (AddSubgroup.neg_mem _ hb.1)
  have hr : f.result (a + -b) = .fin (a + -b) := by
    refine result_of_mem (by omega : f.emin ≤ j) hm hab ?_
    have h3 := ha.small hij hp
    have h4 := hb.small hij hp
    have h5 := abs_sub a b
    rw [← sub_eq_add_neg, hpow]
    linarith
  have e : Flt.ofRat f a - Flt.ofRat f b = ⟨.fin (a + -b)⟩ := congrArg Flt.mk hr
  unfold Wrapped.eq
  dsimp only
  rw [e]
  have e2 : (Tolerance.eps < Tolerance.abs (⟨.fin (a + -b)⟩ : Flt f)) ↔ f.round (1 / 10000) < max (a + -b) (-(a + -b)) := by
    show Dbl.lt (f.result (1 / 10000)) _ ↔ _
    rw [result_eps hi hij hji hm h0 h1]; rfl
  by_cases h : a = b
  · rw [decide_eq_true h, Bool.not_eq_true', decide_eq_false_iff_not, e2, h, add_neg_cancel, neg_zero, max_self, not_lt]
    exact h0.le
  · rw [decide_eq_false h, Bool.not_eq_false', decide_eq_true_iff, e2]
    have := pow2_pos i
    rcases lt_or_gt_of_ne h with c | c
    · have := lattice_gap ha.1 hb.1 c
      exact lt_max_of_lt_right (by linarith)
    · have := lattice_gap hb.1 ha.1 c
      exact lt_max_of_lt_left (by linarith)

end

section
variable {f : Format} {j i : Int} (hp : 1 ≤ f.p) (hi : f.emin ≤ i) (hij : i < j) (hji : j ≤ f.p + i) (hm : f.p + j ≤ f.emax)
  (h0 : 0 < f.round (1 / 10000)) (h1 : f.round (1 / 10000) ≤ pow2 j - pow2 i)

/-- the multiples of `2 ^ j` below `2 ^ (f.p + i)`, as `WrappedDouble` -/
def Wrapped.emb : FEmb ℚ (Wrapped (Flt f)) :=
  let E := Flt.emb hp (le_trans hi hij.le) hm
  have hE : ∀ x, Fine f j i x → E.I x := fun _ h => ⟨h.1, h.small hij hp⟩
  { e := fun x => ⟨Flt.ofRat f x⟩
    I := Fine f j i
    U := AddSubgroup.zmultiples (pow2 j)
    le := fun a b ha hb => wrapped_le hi hij hji hm h0 h1 ha hb
    lt := fun a b ha hb => wrapped_lt hi hij hji hm h0 h1 ha hb
    beq := fun v a hv hva => by
      have hpow : (2 : ℚ) ^ f.p = 2 * 2 ^ (f.p - 1) := by
        conv_lhs => rw [← Nat.sub_add_cancel hp]
        rw [pow_succ, mul_comm]
      have ha : a ∈ AddSubgroup.zmultiples (pow2 j) := by
        have := AddSubgroup.sub_mem _ hva.1 hv.1
        rwa [add_sub_cancel_left] at this
      have hr : f.result (a + -0) = .fin a := by
        rw [neg_zero, add_zero]
        refine result_of_mem (by omega : f.emin ≤ j) hm ha ?_
        have h3 := hva.small hij hp
        have h4 := hv.small hij hp
        have h5 := abs_sub (v + a) v
        rw [add_sub_cancel_left] at h5
        rw [hpow]
        linarith
      have e : Flt.ofRat f a - Flt.ofRat f 0 = ⟨.fin a⟩ := congrArg Flt.mk hr
      show Wrapped.eq (D := Flt f) ⟨.ofRat f a⟩ ⟨.ofRat f 0⟩ = _
      unfold Wrapped.eq
      dsimp only
      rw [e]
      have e2 : (Tolerance.eps < Tolerance.abs (⟨.fin a⟩ : Flt f)) ↔ f.round (1 / 10000) < max a (-a) := by
        show Dbl.lt (f.result (1 / 10000)) _ ↔ _
        rw [result_eps hi hij hji hm h0 h1]; rfl
      by_cases h : a = 0
      · rw [decide_eq_true h, Bool.not_eq_true', decide_eq_false_iff_not, e2, h, neg_zero, max_self, not_lt]
        exact h0.le
      · rw [decide_eq_false h, Bool.not_eq_false', decide_eq_true_iff, e2]
        have := pow2_pos i
        rcases lt_or_gt_of_ne h with c | c
        · have := lattice_gap ha (AddSubgroup.zero_mem _) c
          exact lt_max_of_lt_right (by linarith)
        · have := lattice_gap (AddSubgroup.zero_mem _) ha c
          exact lt_max_of_lt_left (by linarith)
    zero := rfl
    one := rfl
    neg := fun _ _ => rfl
    add := fun v t h h' => congrArg Wrapped.mk (E.add v t (hE _ h) (hE _ h'))
    tag := fun v s t h h' h'' => congrArg Wrapped.mk (E.tag v s t (hE _ h) (hE _ h') (hE _ h''))
    plus := fun a b u h => congrArg Wrapped.mk (E.plus a b u (hE _ h))
    sub := fun a b u h => congrArg Wrapped.mk (E.sub a b u (hE _ h))
    mul := fun a k u hk h => congrArg Wrapped.mk (E.mul a k u (hE _ hk) (hE _ h))
    half := fun a u hk h => congrArg Wrapped.mk (E.half a u (hE _ hk) (hE _ h)) }

end
end AHO
