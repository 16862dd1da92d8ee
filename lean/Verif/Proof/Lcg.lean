import Mathlib.Algebra.Order.Ring.Nat
import Mathlib.Data.Nat.ModEq
import Mathlib.Data.Nat.Prime.Basic
import Mathlib.Data.Fintype.EquivFin
import Mathlib.Tactic.Ring
import Mathlib.Tactic.Linarith
/-!
# The linear congruential generator has full period
-/

namespace AHO
namespace Gen

/-- one step of the generator -/
def step (x : Nat) : Nat := (x * 0x5DEECE66D + 0xB) % 2 ^ 48

/-- `1 + a + ... + a^(d-1)` -/
def gsum (a : Nat) : Nat → Nat
  | 0 => 0
  | d + 1 => a * gsum a d + 1

theorem gsum_add (a d e : Nat) : gsum a (d + e) = a ^ d * gsum a e + gsum a d := by
  induction d with
  | zero => simp [gsum]
  | succ d ih =>
    rw [show d + 1 + e = (d + e) + 1 by omega, gsum, gsum, ih, pow_succ]
    ring

theorem gsum_odd {a : Nat} (ha : a % 4 = 1) (d : Nat) : gsum a d % 2 = d % 2 := by
  induction d with
  | zero => rfl
  | succ d ih =>
    rw [gsum, Nat.add_mod, Nat.mul_mod, ih]
    have : a % 2 = 1 := by omega
    rw [this]
    omega

theorem pow_mod_four {a : Nat} (ha : a % 4 = 1) (d : Nat) : a ^ d % 4 = 1 := by
  rw [Nat.pow_mod, ha]; simp

theorem dvd_of_gsum {a : Nat} (ha : a % 4 = 1) : ∀ k d, 2 ^ k ∣ gsum a d → 2 ^ k ∣ d := by
  intro k
  induction k with
  | zero => intro d _; simp
  | succ k ih =>
    intro d h
    have h2 : gsum a d % 2 = 0 := Nat.mod_eq_zero_of_dvd ((dvd_pow_self 2 (by omega)).trans h)
    rw [gsum_odd ha] at h2
    obtain ⟨e, rfl⟩ : ∃ e, d = e + e := ⟨d / 2, by omega⟩
    have hp := pow_mod_four ha e
    obtain ⟨q, hq⟩ : ∃ q, a ^ e + 1 = 2 * (2 * q + 1) := ⟨(a ^ e + 1) / 4, by omega⟩
    rw [gsum_add, show a ^ e * gsum a e + gsum a e = (a ^ e + 1) * gsum a e by ring, hq, pow_succ, mul_comm (2 ^ k), mul_assoc] at h
    have h3 := Nat.dvd_of_mul_dvd_mul_left (by norm_num) h
    have hc : Nat.Coprime (2 ^ k) (2 * q + 1) := Nat.Coprime.pow_left k (Nat.coprime_two_left.2 ⟨q, rfl⟩)
    obtain ⟨c, hc'⟩ := ih e (hc.dvd_of_dvd_mul_left h3)
    exact ⟨c, by rw [pow_succ, hc']; ring⟩

theorem step_lt (x : Nat) : step x < 2 ^ 48 := Nat.mod_lt _ (by positivity)

theorem step_mod_two (x : Nat) : step x % 2 = (x + 1) % 2 := by
  unfold step
  rw [Nat.mod_mod_of_dvd _ (by norm_num : 2 ∣ 2 ^ 48)]
  omega

theorem iterate_lt {x : Nat} (hx : x < 2 ^ 48) (k : Nat) : step^[k] x < 2 ^ 48 := by
  cases k with
  | zero => exact hx
  | succ k => rw [Function.iterate_succ_apply']; exact step_lt _

theorem iterate_mod_two (x k : Nat) : step^[k] x % 2 = (x + k) % 2 := by
  induction k with
  | zero => rfl
  | succ k ih =>
    rw [Function.iterate_succ_apply', step_mod_two]
    omega

/-- the state after `d` steps -/
theorem iterate_eq (x d : Nat) : step^[d] x ≡ x + gsum 0x5DEECE66D d * (x * (0x5DEECE66D - 1) + 0xB) [MOD 2 ^ 48] := by
  induction d with
  | zero => simp [gsum]; rfl
  | succ d ih =>
    rw [Function.iterate_succ_apply']
    have h1 : step (step^[d] x) ≡ step^[d] x * 0x5DEECE66D + 0xB [MOD 2 ^ 48] := Nat.mod_modEq _ _
    refine h1.trans (((ih.mul_right _).add_right _).trans ?_)
    rw [gsum]
    rw [show (0x5DEECE66D : Nat) = 0x5DEECE66C + 1 from rfl, Nat.add_sub_cancel]
    generalize gsum (0x5DEECE66C + 1) d = g
    generalize (0x5DEECE66C : Nat) = b
    have : (x + g * (x * b + 11)) * (b + 1) + 11 = x + ((b + 1) * g + 1) * (x * b + 11) := by ring
    rw [this]

theorem iterate_ne {x d : Nat} (h0 : 0 < d) (h1 : d < 2 ^ 48) : step^[d] x ≠ x := by
  intro h
  have e := iterate_eq x d
  rw [h] at e
  have e2 : gsum 0x5DEECE66D d * (x * (0x5DEECE66D - 1) + 0xB) ≡ 0 [MOD 2 ^ 48] := by
    have : x + 0 ≡ x + gsum 0x5DEECE66D d * (x * (0x5DEECE66D - 1) + 0xB) [MOD 2 ^ 48] := e
    exact (Nat.ModEq.add_left_cancel' x this).symm
  have e3 := (Nat.modEq_zero_iff_dvd).1 e2
  have hc : Nat.Coprime (2 ^ 48) (x * (0x5DEECE66D - 1) + 0xB) := by
    refine Nat.Coprime.pow_left 48 (Nat.coprime_two_left.2 ?_)
    rw [Nat.odd_iff]
    omega
  have := Nat.le_of_dvd h0 (dvd_of_gsum (by norm_num) 48 d (hc.dvd_of_dvd_mul_right e3))
  omega

theorem iterate_inj {x i j : Nat} (hj : j < 2 ^ 48) (hij : i ≤ j) (h : step^[i] x = step^[j] x) : i = j := by
  by_contra hne
  refine iterate_ne (x := step^[i] x) (d := j - i) (by omega) (by omega) ?_
  rw [← Function.iterate_add_apply, Nat.sub_add_cancel hij, h]

theorem surj_of_inj {N : Nat} {f : Nat → Nat} (h1 : ∀ k, f k < N) (h2 : ∀ i j, i < N → j < N → i ≤ j → f i = f j → i = j) {y : Nat} (hy : y < N) :
    ∃ k < N, f k = y := by
  let g : Fin N → Fin N := fun k => ⟨f k.1, h1 _⟩
  have hg : Function.Injective g := by
    intro i j h
    have h' : f i.1 = f j.1 := congrArg Fin.val h
    apply Fin.ext
    rcases le_total i.1 j.1 with hij | hij
    · exact h2 _ _ i.2 j.2 hij h'
    · exact (h2 _ _ j.2 i.2 hij h'.symm).symm
  obtain ⟨k, hk⟩ := Finite.injective_iff_surjective.1 hg ⟨y, hy⟩
  exact ⟨k.1, k.2, congrArg Fin.val hk⟩

/-- every state is reached from every state -/
theorem full_period {x y : Nat} (hx : x < 2 ^ 48) (hy : y < 2 ^ 48) : ∃ k < 2 ^ 48, step^[k] x = y :=
  surj_of_inj (f := fun k => step^[k] x) (iterate_lt hx) (fun _ _ _ hj hij h => iterate_inj hj hij h) hy

/-- as `full_period`, for any state at the start -/
theorem reaches (x : Nat) {y : Nat} (hy : y < 2 ^ 48) : ∃ k < 2 ^ 48, step^[k + 1] x = y := by
  obtain ⟨k, hk, e⟩ := full_period (step_lt x) hy
  exact ⟨k, hk, by rw [Function.iterate_succ_apply]; exact e⟩

end Gen
end AHO
