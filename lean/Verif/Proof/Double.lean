import Verif.Model.Double
import Verif.Proof.SimSolve
import Mathlib.Algebra.Group.Subgroup.ZPowers.Basic
/-!
# Floating-point operations without rounding
-/

namespace AHO
open Spec

namespace Format

theorem pow2_pos (e : Int) : 0 < pow2 e := zpow_pos (by norm_num) _

theorem pow2_add (a b : Int) : pow2 (a + b) = pow2 a * pow2 b := zpow_add₀ (by norm_num) _ _

theorem pow2_le {a b : Int} : pow2 a ≤ pow2 b ↔ a ≤ b := zpow_le_zpow_iff_right₀ (by norm_num)

theorem pow2_lt {a b : Int} : pow2 a < pow2 b ↔ a < b := zpow_lt_zpow_iff_right₀ (by norm_num)

theorem pow2_nat (k : Nat) : pow2 k = 2 ^ k := zpow_natCast _ _

theorem log2_le {n : Nat} (h : n ≠ 0) : (2 : ℚ) ^ Nat.log2 n ≤ n := by
  exact_mod_cast Nat.log2_self_le h

theorem lt_log2 (n : Nat) : (n : ℚ) < 2 ^ (Nat.log2 n + 1) := by
  exact_mod_cast (Nat.lt_log2_self (n := n))

theorem abs_eq (x : ℚ) : |x| = (x.num.natAbs : ℚ) / x.den := by
  conv_lhs => rw [← Rat.num_div_den x]
  rw [abs_div, Nat.abs_cast, Nat.cast_natAbs, Int.cast_abs]

theorem expo_le {x : ℚ} (hx : x ≠ 0) : pow2 (expo x) ≤ |x| := by
  unfold expo
  dsimp only
  split
  · assumption
  · have hn : x.num.natAbs ≠ 0 := by rw [Int.natAbs_ne_zero]; exact Rat.num_ne_zero.2 hx
    have h1 := log2_le hn
    have h2 := lt_log2 x.den
    have hd : (0 : ℚ) < x.den := by exact_mod_cast x.den_pos
    have e : ((Nat.log2 x.num.natAbs : Nat) : Int) - (Nat.log2 x.den : Nat) - 1 =
        (Nat.log2 x.num.natAbs : Nat) - ((Nat.log2 x.den + 1 : Nat) : Int) := by push_cast; ring
    rw [e, abs_eq, le_div_iff₀ hd, pow2, zpow_sub₀ (by norm_num), zpow_natCast, zpow_natCast, div_mul_eq_mul_div,
      div_le_iff₀ (by positivity)]
    exact mul_le_mul h1 h2.le hd.le (Nat.cast_nonneg _)

theorem lt_expo (x : ℚ) : |x| < pow2 (expo x + 1) := by
  unfold expo
  dsimp only
  have hd : (0 : ℚ) < x.den := by exact_mod_cast x.den_pos
  split
  · have h1 := log2_le (n := x.den) x.den_pos.ne'
    have h2 := lt_log2 x.num.natAbs
    have e : ((Nat.log2 x.num.natAbs : Nat) : Int) - (Nat.log2 x.den : Nat) + 1 =
        ((Nat.log2 x.num.natAbs + 1 : Nat) : Int) - (Nat.log2 x.den : Nat) := by push_cast; ring
    rw [e, abs_eq, div_lt_iff₀ hd, pow2, zpow_sub₀ (by norm_num), zpow_natCast, zpow_natCast, div_mul_eq_mul_div,
      lt_div_iff₀ (by positivity)]
    exact mul_lt_mul h2 h1 (by positivity) (by positivity)
  · rename_i h
    rw [sub_add_cancel]
    exact not_le.1 h

theorem nearest_int (n : Int) : nearest n = n := by
  unfold nearest
  simp

/-- numbers of the format are not changed -/
theorem round_exact {f : Format} {j k : Int} (hj : f.emin ≤ j) (hk : |(k : ℚ)| < 2 ^ f.p) :
    f.round (k * pow2 j) = k * pow2 j := by
  unfold round
  split
  · rename_i h; exact h.symm
  · rename_i hx
    have hle : f.lastDigit (k * pow2 j) ≤ j := by
      refine max_le ?_ hj
      have h1 := expo_le hx
      rw [abs_mul, abs_of_pos (pow2_pos j)] at h1
      have h2 : |(k : ℚ)| * pow2 j < pow2 (f.p + j) := by
        rw [pow2_add, pow2_nat]
        exact mul_lt_mul_of_pos_right hk (pow2_pos j)
      have := pow2_lt.1 (h1.trans_lt h2)
      omega
    generalize f.lastDigit (k * pow2 j) = d at hle
    have e : (k : ℚ) * pow2 j = ((k * 2 ^ (j - d).toNat : Int) : ℚ) * pow2 d := by
      have : j = ((j - d).toNat : Int) + d := by omega
      conv_lhs => rw [this, pow2_add, pow2_nat]
      push_cast; ring
    rw [e, mul_div_assoc, div_self (pow2_pos d).ne', mul_one, nearest_int]

theorem result_exact {f : Format} {j k : Int} (hj : f.emin ≤ j) (hk : |(k : ℚ)| < 2 ^ f.p) (hm : f.p + j ≤ f.emax) :
    f.result (k * pow2 j) = .fin (k * pow2 j) := by
  unfold result
  dsimp only
  rw [round_exact hj hk]
  have h2 : |(k : ℚ) * pow2 j| < pow2 f.emax := by
    refine lt_of_lt_of_le ?_ (pow2_le.2 hm)
    rw [abs_mul, abs_of_pos (pow2_pos j), pow2_add, pow2_nat]
    exact mul_lt_mul_of_pos_right hk (pow2_pos j)
  have := abs_lt.1 h2
  rw [if_neg (by linarith), if_neg (by linarith)]

end Format

open Format

section
variable {f : Format} {j : Int} (hp : 1 ≤ f.p) (hj : f.emin ≤ j) (hm : f.p + j ≤ f.emax)
include hj hm

theorem result_of_mem {x : ℚ} (hx : x ∈ AddSubgroup.zmultiples (pow2 j)) (hb : |x| < 2 ^ f.p * pow2 j) : f.result x = .fin x := by
  obtain ⟨k, rfl⟩ := AddSubgroup.mem_zmultiples_iff.1 hx
  rw [zsmul_eq_mul] at hb ⊢
  rw [abs_mul, abs_of_pos (pow2_pos j)] at hb
  exact result_exact hj (lt_of_mul_lt_mul_right hb (pow2_pos j).le) hm

include hp

/-- multiples of `2 ^ j` with `f.p - 1` digits -/
def Flt.emb : FEmb ℚ (Flt f) :=
  have hpow : (2 : ℚ) ^ f.p = 2 * 2 ^ (f.p - 1) := by
    conv_lhs => rw [← Nat.sub_add_cancel hp]
    rw [pow_succ, mul_comm]
  have hpos : 0 < 2 ^ (f.p - 1) * pow2 j := mul_pos (by positivity) (pow2_pos j)
  have key : ∀ x : ℚ, x ∈ AddSubgroup.zmultiples (pow2 j) → |x| < 2 * (2 ^ (f.p - 1) * pow2 j) → f.result x = .fin x :=
    fun x hx hb => result_of_mem hj hm hx (by rw [hpow, mul_assoc]; exact hb)
  have key' : ∀ x : ℚ, x ∈ AddSubgroup.zmultiples (pow2 j) ∧ |x| < 2 ^ (f.p - 1) * pow2 j → f.result x = .fin x :=
    fun x h => key x h.1 (by linarith [h.2])
  { e := Flt.ofRat f
    I := fun x => x ∈ AddSubgroup.zmultiples (pow2 j) ∧ |x| < 2 ^ (f.p - 1) * pow2 j
    U := AddSubgroup.zmultiples (pow2 j)
    le := fun _ _ _ _ => Iff.rfl
    lt := fun _ _ _ _ => Iff.rfl
    beq := fun _ _ _ _ => rfl
    zero := rfl
    one := rfl
    neg := fun _ _ => rfl
    add := fun v t _ h => congrArg Flt.mk (key' _ h).symm
    tag := fun v s t h1 _ h3 => by
      have e : s + t = (v + t) - (v - s) := by ring
      refine congrArg Flt.mk (key _ ?_ ?_).symm
      · rw [e]; exact AddSubgroup.sub_mem _ h3.1 h1.1
      · rw [e]
        have := abs_sub (v + t) (v - s)
        linarith [h1.2, h3.2]
    plus := fun a b _ h => congrArg Flt.mk (key' _ h).symm
    sub := fun a b _ h => by
      refine congrArg Flt.mk (Eq.trans (key' _ h).symm ?_)
      rw [sub_eq_add_neg]
    mul := fun a k _ hk h => by
      have e : ((k : Int) : Flt f) = ⟨.fin (k : ℚ)⟩ := congrArg Flt.mk (key' _ hk)
      rw [e]
      exact congrArg Flt.mk (key' _ h).symm
    half := fun a _ hk h => by
      have e : ((2 : Int) : Flt f) = ⟨.fin ((2 : Int) : ℚ)⟩ := congrArg Flt.mk (key' _ hk)
      rw [e]
      show _ = Flt.rnd f (if ((2 : Int) : ℚ) = 0 then Flt.infSign a else .fin (a / ((2 : Int) : ℚ)))
      rw [if_neg (by norm_num)]
      exact congrArg Flt.mk (key' _ h).symm }

end

namespace ProblemSolver

theorem range_le {N n : Nat} {W : Int} {S : ℚ} (hS : 0 ≤ S) :
    range N n W S ≤ (1 + 2 * S) * (2 * N * (Nat.clog 2 (2 * (n + 1) * W.toNat) + W + 2) + 2) + W + 2 := by
  have hN : (0 : ℚ) ≤ N := Nat.cast_nonneg _
  have h : (N : ℚ) * S ≤ N * (1 + 2 * S) := mul_le_mul_of_nonneg_left (by linarith) hN
  unfold range Flow.needs
  nlinarith

/-- The run in arithmetic which is exact for the multiples of `2 ^ j` below `B` returns the optimum. -/
theorem run_lattice {R : Type} [Zero R] [One R] [Add R] [Sub R] [Neg R] [Mul R] [Div R] [IntCast R] [BEq R] [LT R] [LE R]
    [DecidableLT R] [DecidableLE R] (E : FEmb ℚ R) {j : Int} {B : ℚ} (hU : E.U = AddSubgroup.zmultiples (pow2 j))
    (hE : ∀ x ∈ E.U, |x| < B → E.I x) (hj0 : j ≤ 0) {imax : Int} {W : Nat}
    {P : Problem ℚ} {Mus : List (MuLimit R)} {Omegas : List (OmegaLimit R)} {G : ℚ}
    (rep : Represents (P.mapCosts E.e) Mus Omegas) (wf : WellFormed P) (cv : ConvexCosts P) (wi : Within P W)
    (wd : Widths P W) (ri : Representable imax P) (hn : P.n + 1 < 2 ^ 64)
    (hcap : ((6 * (P.n + 1) * bitCeil ((P.n + 1) * W) : Nat) : Int) ≤ imax)
    (hG : 0 ≤ G) (hv : P.AllCosts fun v => (∃ k : Int, v = k * (2 : ℚ) ^ j) ∧ |v| ≤ G)
    (hI : (1 + 2 * ((P.pairs.length + P.n : Nat) * G)) *
      (2 * (P.pairs.length + P.n : Nat) * (Nat.clog 2 (2 * (P.n + 1) * W) + W + 2) + 2) + W + 2 < B) :
    ∃ r, Outcome (problemCosts P) r ∧ Returns (fun fuel => run imax fuel P.n Mus Omegas) (r.map E.e) := by
  have hS : 0 ≤ (((P.pairs.length + P.n : Nat) : ℚ) * G) := mul_nonneg (Nat.cast_nonneg _) hG
  have h1 : (1 : ℚ) ∈ E.U := by
    rw [hU]
    refine AddSubgroup.mem_zmultiples_iff.2 ⟨2 ^ (-j).toNat, ?_⟩
    rw [zsmul_eq_mul]
    have : (((2 ^ (-j).toNat : Int) : ℚ)) = pow2 (-j) := by
      generalize hm : (-j).toNat = m
      have e : -j = (m : Int) := by omega
      rw [e, pow2_nat]; push_cast; rfl
    rw [this, ← pow2_add]
    simp [pow2]
  have key : ∀ fuel, solveFuel P.n (P.pairs.length + P.n) imax W ≤ fuel →
      ∃ r, Outcome (problemCosts P) r ∧ run imax fuel P.n Mus Omegas = .ok (r.map E.e) := fun fuel hf =>
    run_simE E (R := W) (W := W) (G := G) rep wf cv wi wd ri hn (by omega) le_rfl
      (by push_cast at hcap ⊢; simpa using hcap) hf hG
      ⟨fun i h1 h2 x h3 h4 => by
        obtain ⟨⟨k, hk⟩, hb⟩ := hv.nodes i h1 h2 x h3 h4
        rw [hU]
        exact ⟨AddSubgroup.mem_zmultiples_iff.2 ⟨k, by rw [hk, zsmul_eq_mul]; rfl⟩, hb⟩,
      fun p hp' x h3 h4 => by
        obtain ⟨⟨k, hk⟩, hb⟩ := hv.pairs p hp' x h3 h4
        rw [hU]
        exact ⟨AddSubgroup.mem_zmultiples_iff.2 ⟨k, by rw [hk, zsmul_eq_mul]; rfl⟩, hb⟩⟩ h1
      (fun x hx hb => hE x hx (lt_of_le_of_lt (hb.trans (range_le hS)) (by
        push_cast at hI ⊢; simpa using hI)))
  obtain ⟨r, r1, -⟩ := key _ le_rfl
  refine ⟨r, r1, returns_of (solveFuel P.n (P.pairs.length + P.n) imax W) (fun fuel hf => ?_)
    fun f f' hf => run_le hf P.n Mus Omegas⟩
  obtain ⟨r', e1, e2⟩ := key fuel hf
  rw [e2, outcome_unique r1 e1]

/-- The run in floating-point arithmetic returns the optimum. -/
theorem run_float {f : Format} {j : Int} (hp : 1 ≤ f.p) (hj : f.emin ≤ j) (hj0 : j ≤ 0) (hm : f.p + j ≤ f.emax) {imax : Int} {W : Nat}
    {P : Problem ℚ} {Mus : List (MuLimit (Flt f))} {Omegas : List (OmegaLimit (Flt f))} {G : ℚ}
    (rep : Represents (P.mapCosts (Flt.ofRat f)) Mus Omegas) (wf : WellFormed P) (cv : ConvexCosts P) (wi : Within P W)
    (wd : Widths P W) (ri : Representable imax P) (hn : P.n + 1 < 2 ^ 64)
    (hcap : ((6 * (P.n + 1) * bitCeil ((P.n + 1) * W) : Nat) : Int) ≤ imax)
    (hG : 0 ≤ G) (hv : P.AllCosts fun v => (∃ k : Int, v = k * (2 : ℚ) ^ j) ∧ |v| ≤ G)
    (hI : (1 + 2 * ((P.pairs.length + P.n : Nat) * G)) *
      (2 * (P.pairs.length + P.n : Nat) * (Nat.clog 2 (2 * (P.n + 1) * W) + W + 2) + 2) + W + 2 < 2 ^ (f.p - 1) * (2 : ℚ) ^ j) :
    ∃ r, Outcome (problemCosts P) r ∧ Returns (fun fuel => run imax fuel P.n Mus Omegas) (r.map (Flt.ofRat f)) :=
  run_lattice (Flt.emb hp hj hm) (j := j) rfl (fun _ hx hb => ⟨hx, hb⟩) hj0 rep wf cv wi wd ri hn hcap hG hv hI

end ProblemSolver
end AHO
