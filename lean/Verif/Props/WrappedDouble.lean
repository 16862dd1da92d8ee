import Verif.Proof.WrappedFloat
import Verif.Props.Double
/-!
# Properties of the program with `Data = WrappedDouble`

`Wrapped (Flt f)` is the model of `WrappedDouble` (`src/include/WrappedDouble.hpp`) over floating-point arithmetic with rounding:
the tolerance `eps` is the number nearest to `1e-4`, and the bounds `a + eps` and `a - eps` in the comparisons are rounded.
-/

namespace AHO.Props
open Spec Format

/-- the `WrappedDouble` of value `x` -/
def wrap (f : Format) (x : ℚ) : Wrapped (Flt f) := ⟨Flt.ofRat f x⟩

/-- C59. The comparisons of `WrappedDouble` are exact for multiples of `2 ^ j` below `2 ^ (p + i)`, if the tolerance is at most
`2 ^ j - 2 ^ i`. -/
theorem C59_comparisons_exact {f : Format} {j i : Int} (hp : 1 ≤ f.p) (hi : f.emin ≤ i) (hij : i < j) (hji : j ≤ f.p + i)
    (hm : f.p + j ≤ f.emax) (h0 : 0 < f.round (1 / 10000)) (h1 : f.round (1 / 10000) ≤ (2 : ℚ) ^ j - (2 : ℚ) ^ i)
    {k l : Int} (hk : |k * (2 : ℚ) ^ j| < 2 ^ f.p * (2 : ℚ) ^ i) (hl : |l * (2 : ℚ) ^ j| < 2 ^ f.p * (2 : ℚ) ^ i) :
    (Wrapped.eq (wrap f (k * (2 : ℚ) ^ j)) (wrap f (l * (2 : ℚ) ^ j)) = decide (k = l)) ∧
    (Wrapped.lt (wrap f (k * (2 : ℚ) ^ j)) (wrap f (l * (2 : ℚ) ^ j)) = decide (k < l)) ∧
    (Wrapped.le (wrap f (k * (2 : ℚ) ^ j)) (wrap f (l * (2 : ℚ) ^ j)) = decide (k ≤ l)) ∧
    (Wrapped.gt (wrap f (k * (2 : ℚ) ^ j)) (wrap f (l * (2 : ℚ) ^ j)) = decide (k > l)) ∧
    (Wrapped.ge (wrap f (k * (2 : ℚ) ^ j)) (wrap f (l * (2 : ℚ) ^ j)) = decide (k ≥ l)) := by
  have hK : Fine f j i (k * (2 : ℚ) ^ j) := ⟨AddSubgroup.mem_zmultiples_iff.2 ⟨k, by rw [zsmul_eq_mul]; rfl⟩, hk⟩
  have hL : Fine f j i (l * (2 : ℚ) ^ j) := ⟨AddSubgroup.mem_zmultiples_iff.2 ⟨l, by rw [zsmul_eq_mul]; rfl⟩, hl⟩
  have hpos : (0 : ℚ) < (2 : ℚ) ^ j := pow2_pos j
  have b : ∀ (p : Bool) (q q' : Prop) [Decidable q'], (p = true ↔ q) → (q ↔ q') → p = decide q' := by
    intro p q q' _ h h'
    rw [Bool.eq_iff_iff, decide_eq_true_iff, h, h']
  refine ⟨?_, b _ _ _ (wrapped_lt hi hij hji hm h0 h1 hK hL) ?_, b _ _ _ (wrapped_le hi hij hji hm h0 h1 hK hL) ?_,
    b _ _ _ (wrapped_gt hi hij hji hm h0 h1 hK hL) ?_, b _ _ _ (wrapped_ge hi hij hji hm h0 h1 hK hL) ?_⟩
  · refine (wrapped_eq hp hi hij hji hm h0 h1 hK hL).trans (decide_eq_decide.2 ?_)
    rw [mul_left_inj' hpos.ne', Int.cast_inj]
  · rw [mul_lt_mul_iff_left₀ hpos, Int.cast_lt]
  · rw [mul_le_mul_iff_left₀ hpos, Int.cast_le]
  · rw [mul_lt_mul_iff_left₀ hpos, Int.cast_lt]
  · rw [mul_le_mul_iff_left₀ hpos, Int.cast_le]

/-- `eps` in `double` meets the hypotheses for integers and for all multiples of `2 ^ -13`; in `float` too. -/
theorem eps64 : 0 < binary64.round (1 / 10000) ∧ binary64.round (1 / 10000) ≤ (2 : ℚ) ^ (0 : Int) - (2 : ℚ) ^ (-1 : Int) ∧
    binary64.round (1 / 10000) ≤ (2 : ℚ) ^ (-13 : Int) - (2 : ℚ) ^ (-16 : Int) := by decide +kernel

example : 0 < binary32.round (1 / 10000) ∧ binary32.round (1 / 10000) ≤ (2 : ℚ) ^ (-13 : Int) - (2 : ℚ) ^ (-16 : Int) := by
  decide +kernel

/-- `1000 / 2 ^ 13` and `1001 / 2 ^ 13` are told apart -/
example : Wrapped.lt (wrap binary64 ((1000 : Int) * (2 : ℚ) ^ (-13 : Int))) (wrap binary64 ((1001 : Int) * (2 : ℚ) ^ (-13 : Int))) = true :=
  (C59_comparisons_exact (i := -16) (by decide) (by decide) (by decide) (by decide) (by decide) eps64.1 eps64.2.2 (by decide +kernel)
    (by decide +kernel)).2.1

/-- C59. If all costs are multiples of `2 ^ j` (`j ≤ 0`) bounded by `G`, the tolerance is at most `2 ^ j - 2 ^ i`, and
`(1 + 2 N G) (2 N (T + W + 2) + 2) + W + 2`, as in C32, is less than `2 ^ (p + i)`, then the program with `WrappedDouble` computes
the exact optimum, and nothing exactly if the constraints cannot be met. -/
theorem C59_wrapped_exact {f : Format} {j i : Int} (hp : 1 ≤ f.p) (hi : f.emin ≤ i) (hij : i < j) (hj0 : j ≤ 0)
    (hji : j ≤ f.p + i) (hm : f.p + j ≤ f.emax) (h0 : 0 < f.round (1 / 10000))
    (h1 : f.round (1 / 10000) ≤ (2 : ℚ) ^ j - (2 : ℚ) ^ i)
    {imax : Int} {P : Problem ℚ} {Mus : List (MuLimit (Wrapped (Flt f)))} {Omegas : List (OmegaLimit (Wrapped (Flt f)))}
    (rep : Represents (P.mapCosts (wrap f)) Mus Omegas) (wf : WellFormed P) (cv : ConvexCosts P)
    (hn : P.n + 1 < 2 ^ 64) (ri : Representable imax P) {W : Nat} (wi : Within P W) (wd : Widths P W)
    (cap : ((6 * (P.n + 1) * bitCeil ((P.n + 1) * W) : Nat) : Int) ≤ imax)
    {G : ℚ} (hG : 0 ≤ G) (hv : P.AllCosts fun v => (∃ k : Int, v = k * (2 : ℚ) ^ j) ∧ |v| ≤ G)
    (hI : (1 + 2 * ((P.pairs.length + P.n : Nat) * G)) *
      (2 * (P.pairs.length + P.n : Nat) * (Nat.clog 2 (2 * (P.n + 1) * W) + W + 2) + 2) + W + 2 < 2 ^ f.p * (2 : ℚ) ^ i) :
    ∃ r : Option ℚ, Returns (fun fuel => ProblemSolver.run imax fuel P.n Mus Omegas) (r.map (wrap f)) ∧
      (∀ v, r = some v ↔ IsOptimum P v) ∧ (r = none ↔ ¬ Solvable P) := by
  obtain ⟨r, r1, r2⟩ := ProblemSolver.run_lattice (Wrapped.emb hp hi hij hji hm h0 h1) rfl (fun _ hx hb => ⟨hx, hb⟩) hj0
    rep wf cv wi wd ri hn cap hG hv hI
  exact ⟨r, r2, outcome_some r1, outcome_none r1⟩

/-- C59 for integer costs: with `WrappedDouble` the bound is the one of `double` (C32). -/
theorem C59_wrapped_exact_int {imax : Int} {P : Problem ℚ} {Mus : List (MuLimit (Wrapped (Flt binary64)))}
    {Omegas : List (OmegaLimit (Wrapped (Flt binary64)))}
    (rep : Represents (P.mapCosts (wrap binary64)) Mus Omegas) (wf : WellFormed P) (cv : ConvexCosts P)
    (hn : P.n + 1 < 2 ^ 64) (ri : Representable imax P) {W : Nat} (wi : Within P W) (wd : Widths P W)
    (cap : ((6 * (P.n + 1) * bitCeil ((P.n + 1) * W) : Nat) : Int) ≤ imax)
    {G : Nat} (hv : P.AllCosts fun v => ∃ k : Int, v = k ∧ |k| ≤ G)
    (hI : (1 + 2 * ((P.pairs.length + P.n) * G)) *
      (2 * (P.pairs.length + P.n) * (Nat.clog 2 (2 * (P.n + 1) * W) + W + 2) + 2) + W + 2 < 2 ^ 52) :
    ∃ r : Option ℚ, Returns (fun fuel => ProblemSolver.run imax fuel P.n Mus Omegas) (r.map (wrap binary64)) ∧
      (∀ v, r = some v ↔ IsOptimum P v) ∧ (r = none ↔ ¬ Solvable P) := by
  refine C59_wrapped_exact (j := 0) (i := -1) (G := G) (by decide) (by decide) (by decide) le_rfl (by decide) (by decide) eps64.1
    eps64.2.1 rep wf cv hn ri wi wd cap (Nat.cast_nonneg _) ⟨?_, ?_⟩ ?_
  · intro i h1 h2 x h3 h4
    obtain ⟨k, hk, hb⟩ := hv.nodes i h1 h2 x h3 h4
    exact ⟨⟨k, by simp [hk]⟩, by rw [hk]; exact_mod_cast hb⟩
  · intro p hp x h3 h4
    obtain ⟨k, hk, hb⟩ := hv.pairs p hp x h3 h4
    exact ⟨⟨k, by simp [hk]⟩, by rw [hk]; exact_mod_cast hb⟩
  · have : (2 : ℚ) ^ binary64.p * (2 : ℚ) ^ (-1 : Int) = 2 ^ 52 := by norm_num [binary64]
    rw [this]
    exact_mod_cast hI

/-- C59 for costs with 13 binary digits after the point, the most for which it can hold (`C59_finer_costs_fail`). -/
theorem C59_wrapped_exact_13 {imax : Int} {P : Problem ℚ} {Mus : List (MuLimit (Wrapped (Flt binary64)))}
    {Omegas : List (OmegaLimit (Wrapped (Flt binary64)))}
    (rep : Represents (P.mapCosts (wrap binary64)) Mus Omegas) (wf : WellFormed P) (cv : ConvexCosts P)
    (hn : P.n + 1 < 2 ^ 64) (ri : Representable imax P) {W : Nat} (wi : Within P W) (wd : Widths P W)
    (cap : ((6 * (P.n + 1) * bitCeil ((P.n + 1) * W) : Nat) : Int) ≤ imax)
    {G : Nat} (hv : P.AllCosts fun v => (∃ k : Int, v = k / 2 ^ 13) ∧ |v| ≤ G)
    (hI : (1 + 2 * ((P.pairs.length + P.n) * G)) *
      (2 * (P.pairs.length + P.n) * (Nat.clog 2 (2 * (P.n + 1) * W) + W + 2) + 2) + W + 2 < 2 ^ 37) :
    ∃ r : Option ℚ, Returns (fun fuel => ProblemSolver.run imax fuel P.n Mus Omegas) (r.map (wrap binary64)) ∧
      (∀ v, r = some v ↔ IsOptimum P v) ∧ (r = none ↔ ¬ Solvable P) := by
  refine C59_wrapped_exact (j := -13) (i := -16) (G := G) (by decide) (by decide) (by decide) (by decide) (by decide) (by decide)
    eps64.1 eps64.2.2 rep wf cv hn ri wi wd cap (Nat.cast_nonneg _) ⟨?_, ?_⟩ ?_
  · intro i h1 h2 x h3 h4
    obtain ⟨⟨k, hk⟩, hb⟩ := hv.nodes i h1 h2 x h3 h4
    exact ⟨⟨k, by rw [hk, zpow_neg, div_eq_mul_inv]; norm_num⟩, hb⟩
  · intro p hp x h3 h4
    obtain ⟨⟨k, hk⟩, hb⟩ := hv.pairs p hp x h3 h4
    exact ⟨⟨k, by rw [hk, zpow_neg, div_eq_mul_inv]; norm_num⟩, hb⟩
  · have : (2 : ℚ) ^ binary64.p * (2 : ℚ) ^ (-16 : Int) = 2 ^ 37 := by norm_num [binary64]
    rw [this]
    exact_mod_cast hI

/-! The example meets the hypotheses. -/

/-- `Mus` of the example with `WrappedDouble` -/
def exMusW : List (MuLimit (Wrapped (Flt binary64))) :=
  [⟨0, 0, fun _ => .error .callback⟩, ⟨-2, 3, fun x => .ok (wrap _ (((x : ℚ) - 1) ^ 2))⟩,
    ⟨0, 4, fun x => .ok (wrap _ (((x : ℚ) - 2) ^ 2))⟩]

/-- `Omegas` of the example with `WrappedDouble` -/
def exOmegasW : List (OmegaLimit (Wrapped (Flt binary64))) :=
  [⟨⟨-4, -2, fun x => .ok (wrap _ (2 * (x : ℚ)))⟩, 1, 2⟩, ⟨⟨0, 5, fun x => .ok (wrap _ (3 * (x : ℚ) ^ 2))⟩, 2, 1⟩]

theorem ex_repW : Represents (exP.mapCosts (wrap binary64)) exMusW exOmegasW := by
  refine ⟨rfl, ?_, .cons ⟨rfl, rfl, rfl, rfl, fun x a b => rfl⟩ (.cons ⟨rfl, rfl, rfl, rfl, fun x a b => rfl⟩ .nil)⟩
  intro i h h1
  have h3 : i < 3 := h
  interval_cases i <;> exact ⟨rfl, rfl, fun x a b => rfl⟩

theorem ex_within8 : Within exP ((8 : Nat) : Int) := by
  have := ex_within
  refine ⟨fun i h1 h2 => ?_, fun i h1 h2 => ?_, fun p hp => ?_, fun p hp => ?_⟩
  · have := this.lo i h1 h2; push_cast; omega
  · have := this.hi i h1 h2; push_cast; omega
  · have := this.u p hp; push_cast; omega
  · have := this.diff p hp; push_cast; omega

example : ∃ r : Option ℚ, Returns (fun fuel => ProblemSolver.run (2 ^ 31 - 1) fuel exP.n exMusW exOmegasW)
      (r.map (wrap binary64)) ∧ (∀ v, r = some v ↔ IsOptimum exP v) ∧ (r = none ↔ ¬ Solvable exP) := by
  refine C59_wrapped_exact_int ex_repW ex_wf ex_cv ex_n ex_representable (W := 8) ex_within8 ex_widths ?_ ex_costs ?_
  · rw [ex_bitCeil]; simp [exP]
  · have : Nat.clog 2 48 = 6 := by decide +kernel
    simp [exP, this]

example : ∃ r : Option ℚ, Returns (fun fuel => ProblemSolver.run (2 ^ 31 - 1) fuel exP.n exMusW exOmegasW)
      (r.map (wrap binary64)) ∧ (∀ v, r = some v ↔ IsOptimum exP v) ∧ (r = none ↔ ¬ Solvable exP) := by
  have hc : ∀ v : ℚ, (∃ k : Int, v = k ∧ |k| ≤ (75 : Nat)) → (∃ k : Int, v = k / 2 ^ 13) ∧ |v| ≤ ((75 : Nat) : ℚ) := by
    rintro v ⟨k, rfl, h⟩
    exact ⟨⟨k * 2 ^ 13, by push_cast; ring⟩, by exact_mod_cast h⟩
  refine C59_wrapped_exact_13 ex_repW ex_wf ex_cv ex_n ex_representable (W := 8) ex_within8 ex_widths ?_ (G := 75)
    ⟨fun i h1 h2 x h3 h4 => hc _ (ex_costs.nodes i h1 h2 x h3 h4), fun p hp x h3 h4 => hc _ (ex_costs.pairs p hp x h3 h4)⟩ ?_
  · rw [ex_bitCeil]; simp [exP]
  · have : Nat.clog 2 48 = 6 := by decide +kernel
    simp [exP, this]

/-! ### Finer costs -/

/-- one node with the cost `-x / 2 ^ 14` on `[0, 7]` -/
def fineP : Problem ℚ := ⟨1, fun _ => 0, fun _ => 7, fun _ x => -x / 2 ^ 14, []⟩

/-- `fineP` as input for the solver -/
def fineMus : List (MuLimit (Wrapped (Flt binary64))) :=
  [⟨0, 0, fun _ => .error .callback⟩, ⟨0, 7, fun x => .ok (wrap _ (-x / 2 ^ 14))⟩]

deriving instance DecidableEq for Wrapped

/-- C59. With costs which are multiples of `2 ^ -14` the program with `WrappedDouble` can return a value which is not the optimum,
although no operation is rounded. -/
theorem C59_finer_costs_fail : Represents (fineP.mapCosts (wrap binary64)) fineMus [] ∧ WellFormed fineP ∧ ConvexCosts fineP ∧
    Capacity (2 ^ 31 - 1) fineP ∧ (fineP.AllCosts fun v => ∃ k : Int, v = k / 2 ^ 14) ∧ IsOptimum fineP (-(7 / 2 ^ 14)) ∧
    Returns (fun fuel => ProblemSolver.run (2 ^ 31 - 1) fuel fineP.n fineMus []) (some (wrap binary64 (-(7 / 2 ^ 15)))) := by
  have hb : Nat.clog 2 14 = 4 := by decide +kernel
  have hc : ∀ μ ω, cost fineP μ ω = -(μ 1 : ℚ) / 2 ^ 14 := by
    intro μ ω
    have h0 : ∑ k : Fin fineP.pairs.length, fineP.pairs[k].B (ω k) = 0 := Finset.sum_eq_zero fun k _ => k.elim0
    rw [cost, h0]
    simp [fineP]
  refine ⟨⟨rfl, ?_, .nil⟩, ?_, ?_, ⟨?_, 7, ?_, ?_, ?_⟩, ⟨?_, by simp [fineP]⟩, ?_,
    returns_of_eval 60 (by decide +kernel) fun _ _ h => ProblemSolver.run_le h _ _ _⟩
  · intro i h h1
    have h3 : i < 2 := h
    interval_cases i
    exact ⟨rfl, rfl, fun x a b => rfl⟩
  · constructor <;> simp [fineP]
  · constructor
    · intro i _ _ x _ _
      simp only [fineP]
      push_cast
      linarith
    · simp [fineP]
  · constructor <;> simp [fineP]
  · constructor <;> simp [fineP]
  · constructor <;> simp [fineP]
  · simp [fineP, bitCeil, hb]
  · intro i _ _ x _ _
    exact ⟨-x, by simp [fineP]⟩
  · refine ⟨⟨fun _ => 7, fun _ => 0, ⟨by simp [fineP], by simp [fineP]⟩, ?_⟩, ?_⟩
    · rw [hc]; norm_num
    · intro μ ω h
      have h1 : μ 1 ≤ 7 := (h.1 1 le_rfl le_rfl).2
      have h2 : ((μ 1 : Int) : ℚ) ≤ 7 := by exact_mod_cast h1
      rw [hc]
      linarith

end AHO.Props
