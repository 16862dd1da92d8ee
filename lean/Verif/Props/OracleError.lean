import Verif.Proof.OracleTurn
import Verif.Proof.OracleError
import Verif.Props.DoubleOracle
import Verif.Props.Rounding
/-!
# `bf_solve` with `Data = double` on costs which are rounded

C50 is about costs whose sums are exact. Here the costs are any numbers of the format near to convex costs, and the additions are rounded.
-/

namespace AHO.Props
open Spec Format

theorem pow_unit_le {f : Format} : ∀ {k : Nat}, 2 * k ≤ 2 ^ f.p → (1 + unit f) ^ k ≤ 1 + 2 * k * unit f
  | 0, _ => by simp
  | k + 1, h => by
    have h1 := pow_unit_le (f := f) (k := k) (by omega)
    have hu := unit_pos f
    have h2 : 2 * k * unit f ≤ 1 := by
      unfold unit
      rw [mul_one_div, div_le_one (by positivity)]
      exact_mod_cast (show 2 * k ≤ 2 ^ f.p by omega)
    rw [pow_succ]
    push_cast
    nlinarith

/-- C70. Let `P` be a problem with convex pair costs, and let the callbacks return numbers of the format which differ by at most `δ` from the costs
of `P` and are bounded by `G`. Then `bf_solve` finds out whether there is a solution, and what it returns differs from the optimum of `P` by at
most `2 N² G / 2 ^ p + N δ + 2 m W δ`, where `N = n + m` is the number of the costs and `W` the greatest length of a pair range. Every number of
the format is a multiple of `2 ^ emin`. -/
theorem C70_oracle_error {f : Format} (hp : 1 ≤ f.p) {imax : Int} {P P' : Problem ℚ} {δ : ℚ} (near : P.Near P' δ) (hδ : 0 ≤ δ)
    {Mus : List (MuLimit (Flt f))} {Omegas : List (OmegaLimit (Flt f))} (rep : Represents (P'.mapCosts (Flt.ofRat f)) Mus Omegas)
    (wf : WellFormed P) (cv : ∀ p ∈ P.pairs, Convex p.B p.l p.u) (ri : Representable imax P) {R : Int} (wi : Within P R) (hR0 : 0 ≤ R)
    (hR : 2 * R + 1 ≤ imax) {G : ℚ} (hG : 0 ≤ G) (hv : P'.AllCosts fun v => (∃ k : Int, v = k * (2 : ℚ) ^ f.emin) ∧ |v| ≤ G)
    {W : Int} (hW : ∀ p ∈ P.pairs, p.u - p.l ≤ W) {N : Nat} (hN : N = P.n + P.pairs.length) (hNp : 2 * N ≤ 2 ^ f.p)
    (hmax : 2 * N * G < (2 : ℚ) ^ f.emax) :
    (¬ Solvable P ∧ Returns (fun fuel => Oracle.bfSolve imax fuel P.n Mus Omegas) none) ∨
    ∃ v o, IsOptimum P o ∧ Returns (fun fuel => Oracle.bfSolve imax fuel P.n Mus Omegas) (some (Flt.ofRat f v)) ∧
      |v - o| ≤ 2 * N ^ 2 * G / 2 ^ f.p + N * δ + 2 * P.pairs.length * W * δ := by
  have hu := unit_pos f
  have hpow := pow_unit_le (f := f) hNp
  have hN1 : 2 * N * unit f ≤ 1 := by
    unfold unit
    rw [mul_one_div, div_le_one (by positivity)]
    exact_mod_cast hNp
  have hNG : (0 : ℚ) ≤ N * G := by positivity
  have hmax' : N * G * (1 + unit f) ^ N < pow2 f.emax := by
    refine lt_of_le_of_lt ?_ hmax
    have := mul_le_mul_of_nonneg_left (show (1 + unit f) ^ N ≤ 2 by linarith) hNG
    linarith
  have hv' : P'.AllCosts (Oracle.IsCost f G) := by
    refine hv.mono ?_
    rintro v ⟨⟨k, hk⟩, hb⟩
    exact ⟨AddSubgroup.mem_zmultiples_iff.2 ⟨k, by rw [hk, zsmul_eq_mul]; rfl⟩, hb⟩
  have hlen := near.pairs.length_eq
  -- the conditions which do not concern the costs hold for both problems
  have hpair : ∀ p' ∈ P'.pairs, ∃ p ∈ P.pairs, p'.i = p.i ∧ p'.j = p.j ∧ p'.l = p.l ∧ p'.u = p.u := by
    intro p' hp'
    obtain ⟨k, hk, rfl⟩ := List.getElem_of_mem hp'
    obtain ⟨a1, a2, a3, a4, -⟩ := (List.forall₂_iff_get.1 near.pairs).2 k (by omega) hk
    exact ⟨_, List.getElem_mem (show k < P.pairs.length by omega), a1, a2, a3, a4⟩
  have wf' : WellFormed P' := by
    constructor
    · intro i h1 h2
      rw [near.n] at h2
      rw [near.lo i h1 h2, near.hi i h1 h2]
      exact wf.nodes i h1 h2
    all_goals
      intro p' hp'
      obtain ⟨p, hp, a1, a2, a3, a4⟩ := hpair p' hp'
      simp only [a1, a2, a3, a4, near.n]
    · exact wf.i_pos p hp
    · exact wf.i_le p hp
    · exact wf.j_pos p hp
    · exact wf.j_le p hp
    · exact wf.ne p hp
    · exact wf.le p hp
  have ri' : Representable imax P' := by
    constructor
    all_goals
      intro p' hp'
      obtain ⟨p, hp, a1, a2, a3, a4⟩ := hpair p' hp'
      simp only [a3, a4]
    · exact ri.lo p hp
    · exact ri.width p hp
  have wi' : Within P' R := by
    constructor
    · intro i h1 h2
      rw [near.n] at h2
      rw [near.lo i h1 h2]
      exact wi.lo i h1 h2
    · intro i h1 h2
      rw [near.n] at h2
      rw [near.hi i h1 h2]
      exact wi.hi i h1 h2
    · intro p' hp'
      obtain ⟨p, hp, a1, a2, a3, a4⟩ := hpair p' hp'
      rw [a4]
      exact wi.u p hp
    · intro p' hp'
      obtain ⟨p, hp, a1, a2, a3, a4⟩ := hpair p' hp'
      rw [a1, a2, near.lo _ (wf.i_pos p hp) (wf.i_le p hp), near.hi _ (wf.j_pos p hp) (wf.j_le p hp)]
      exact wi.diff p hp
  obtain ⟨r, qs, h1, h2, h3⟩ := Oracle.bfSolve_turn (exact_represents P') wf' ri' wi' hR0 hR (Nat.lt_succ_self _)
  obtain ⟨h4, h5⟩ := Oracle.bfSolve_near near hδ wf cv hW h2 h3
  obtain ⟨r', h6, h7⟩ := Oracle.bfSolve_err (N := N) hp hG hmax' (exact_musSim rep hv') (exact_omSim rep hv')
    (by rw [hN, near.n]; simp [exactOmegas, hlen]) r h1
  rw [near.n] at h6
  have ret := returns_of_eval _ h6 fun _ _ h => Oracle.bfSolve_le h _ _ _
  rcases h7 with ⟨rfl, rfl⟩ | ⟨x, y, rfl, rfl, h8⟩
  · exact .inl ⟨h4.1 rfl, ret⟩
  · obtain ⟨o, -, h9, h10⟩ := C31_oracle_correct (exact_represents P) wf (fun p hp => (cv p hp).valley) ri wi hR0 hR
    cases o with
    | none => exact absurd (h4.2 (h10.1 rfl)) (by simp)
    | some o =>
      have ho := (h9 o).1 rfl
      refine .inr ⟨y, o, ho, ret, ?_⟩
      have h11 := h5 x o rfl ho
      have h12 : y - o = (y - x) + (x - o) := by ring
      have h13 : Oracle.sumError f G N ≤ 2 * N ^ 2 * G / 2 ^ f.p := by
        unfold Oracle.sumError
        have := mul_le_mul_of_nonneg_left (show (1 + unit f) ^ N - 1 ≤ 2 * N * unit f by linarith) hNG
        refine this.trans (le_of_eq ?_)
        unfold unit
        ring
      rw [h12]
      refine (abs_add_le _ _).trans ?_
      rw [← hN] at h11
      linarith

/-- Two variables in `[0, 2]` with the costs `-0.7 x` and `0.1 x`, and a pair in `[0, 2]` with the cost `0.3 x`; `g` says how the products are computed. -/
def tenthsP (g : ℚ → Int → ℚ) : Problem ℚ where
  n := 2
  lo := fun _ => 0
  hi := fun _ => 2
  F := fun i x => if i = 1 then g (-7 / 10) x else g (1 / 10) x
  pairs := [⟨1, 2, 0, 2, fun x => g (3 / 10) x⟩]

/-- the product of the nearest number to `c` and `x`, rounded -/
def product (c : ℚ) (x : Int) : ℚ := binary64.round (binary64.round c * x)

/-- The callbacks of the example multiply a literal of `double` by the argument. -/
def tenthsMus : List (MuLimit (Flt binary64)) :=
  [⟨0, 0, fun _ => .error .callback⟩, ⟨0, 2, fun x => .ok (Flt.ofRat _ (binary64.round (-7 / 10)) * (x : Flt binary64))⟩,
    ⟨0, 2, fun x => .ok (Flt.ofRat _ (binary64.round (1 / 10)) * (x : Flt binary64))⟩]

/-- the callback of the pair of the example -/
def tenthsOmegas : List (OmegaLimit (Flt binary64)) :=
  [⟨⟨0, 2, fun x => .ok (Flt.ofRat _ (binary64.round (3 / 10)) * (x : Flt binary64))⟩, 1, 2⟩]

theorem tenths_mul {c : ℚ} (hc : c = -7 / 10 ∨ c = 1 / 10 ∨ c = 3 / 10) {x : Int} (h0 : 0 ≤ x) (h2 : x ≤ 2) :
    (Flt.ofRat binary64 (binary64.round c) * (x : Flt binary64)).val = .fin (product c x) ∧ |product c x - c * x| ≤ 1 / 2 ^ 52 ∧
      (∃ k : Int, product c x = k * (2 : ℚ) ^ (-1074 : Int)) ∧ |product c x| ≤ 2 := by
  refine ⟨?_, ?_, ?_, ?_⟩
  · rcases hc with rfl | rfl | rfl <;> interval_cases x <;> decide +kernel
  · rcases hc with rfl | rfl | rfl <;> interval_cases x <;> decide +kernel
  · obtain ⟨k, hk⟩ := AddSubgroup.mem_zmultiples_iff.1 (round_mem binary64 (binary64.round c * x))
    exact ⟨k, by rw [product, ← hk, zsmul_eq_mul]; rfl⟩
  · rcases hc with rfl | rfl | rfl <;> interval_cases x <;> decide +kernel

/-- The hypotheses are met by costs `0.7 x`, `0.1 x`, `0.3 x` which are computed with `double`; the result is right up to `10 ^ -14`. -/
example : ∃ v o, IsOptimum (tenthsP fun c x => c * x) o ∧
    Returns (fun fuel => Oracle.bfSolve (2 ^ 31 - 1) fuel 2 tenthsMus tenthsOmegas) (some (Flt.ofRat binary64 v)) ∧ |v - o| ≤ 1 / 10 ^ 14 := by
  have h := C70_oracle_error (f := binary64) (by decide) (imax := 2 ^ 31 - 1) (P := tenthsP fun c x => c * x) (P' := tenthsP product) (δ := 1 / 2 ^ 52)
    ⟨rfl, fun _ _ _ => rfl, fun _ _ _ => rfl, fun i h1 h2 x a b => ?_, .cons ⟨rfl, rfl, rfl, rfl, fun x a b => ?_⟩ .nil⟩ (by positivity)
    (Mus := tenthsMus) (Omegas := tenthsOmegas) ⟨rfl, fun i h h1 => ?_, .cons ⟨rfl, rfl, rfl, rfl, fun x a b => ?_⟩ .nil⟩
    (by constructor <;> simp [tenthsP]) (fun p hp => ?_) (by constructor <;> simp [tenthsP]) (R := 2) (by constructor <;> simp [tenthsP])
    (by decide) (by decide) (G := 2) (by norm_num) ⟨fun i h1 h2 x a b => ?_, fun p hp x a b => ?_⟩ (W := 2) (by simp [tenthsP]) (N := 3) rfl (by decide)
    (lt_of_lt_of_le (show _ < (2 : ℚ) ^ (4 : Int) by norm_num) (zpow_le_zpow_right₀ (by norm_num) (by decide)))
  · rcases h with ⟨h, -⟩ | ⟨v, o, h1, h2, h3⟩
    · exact absurd ⟨fun _ => 0, fun _ => 0, fun i _ _ => ⟨le_rfl, show (0 : Int) ≤ 2 by decide⟩, fun k hk => by
        obtain rfl : k = 0 := by simpa [tenthsP] using hk
        exact ⟨le_rfl, show (0 : Int) ≤ 2 by decide, le_rfl⟩⟩ h
    · refine ⟨v, o, h1, h2, h3.trans ?_⟩
      norm_num [binary64, tenthsP]
  · simp only [tenthsP]
    split
    · exact (tenths_mul (.inl rfl) a b).2.1
    · exact (tenths_mul (.inr (.inl rfl)) a b).2.1
  · exact (tenths_mul (.inr (.inr rfl)) a b).2.1
  · have h3 : i < 3 := h
    interval_cases i
    · exact ⟨rfl, rfl, fun x a b => congrArg (fun v => Except.ok (Flt.mk v)) (tenths_mul (.inl rfl) a b).1⟩
    · exact ⟨rfl, rfl, fun x a b => congrArg (fun v => Except.ok (Flt.mk v)) (tenths_mul (.inr (.inl rfl)) a b).1⟩
  · exact congrArg (fun v => Except.ok (Flt.mk v)) (tenths_mul (.inr (.inr rfl)) a b).1
  · obtain rfl : p = _ := List.mem_singleton.1 hp
    intro x a b
    push_cast
    linarith
  · simp only [tenthsP]
    split
    · exact (tenths_mul (.inl rfl) a b).2.2
    · exact (tenths_mul (.inr (.inl rfl)) a b).2.2
  · obtain rfl : p = _ := List.mem_singleton.1 hp
    exact (tenths_mul (.inr (.inr rfl)) a b).2.2

/-- One pair in `[0, 1000]` between two fixed variables; `g` is its cost. -/
def plateauP (g : Int → ℚ) : Problem ℚ where
  n := 2
  lo := fun _ => 0
  hi := fun _ => 0
  F := fun _ _ => 0
  pairs := [⟨1, 2, 0, 1000, g⟩]

theorem plateau_cost (g : Int → ℚ) (μ ω : Nat → Int) : cost (plateauP g) μ ω = g (ω 0) := by
  show ∑ i ∈ Finset.Icc 1 2, (0 : ℚ) + ∑ k : Fin 1, g (ω k) = g (ω 0)
  simp

/-- the limits of the nodes of `plateauP` -/
def plateauMus : List (MuLimit (Flt binary64)) := [⟨0, 0, fun _ => .error .callback⟩, ⟨0, 0, fun _ => .ok (Flt.ofRat _ 0)⟩, ⟨0, 0, fun _ => .ok (Flt.ofRat _ 0)⟩]

/-- the limit of the pair: the nearest `double` to `2 ^ 53 - x / 2` -/
def plateauOmegas : List (OmegaLimit (Flt binary64)) := [⟨⟨0, 1000, fun x => .ok (Flt.ofRat _ (binary64.round (2 ^ 53 - (x : ℚ) / 2)))⟩, 1, 2⟩]

/-- C70. The term `2 m W δ` is needed. The cost `2 ^ 53 - x / 2` is linear and decreasing, and the callback returns it rounded to the nearest `double`, so that
it is wrong by at most `1 / 2`. But it does not decrease any more at some places, and the binary search of `pre_processing` stops at one of them: the
result of `bf_solve` is too large by 328. -/
theorem C70_oracle_plateau : Represents ((plateauP fun x => binary64.round (2 ^ 53 - (x : ℚ) / 2)).mapCosts (Flt.ofRat binary64)) plateauMus plateauOmegas ∧
    (∀ x : Int, 0 ≤ x → x ≤ 1000 → |binary64.round (2 ^ 53 - (x : ℚ) / 2) - (2 ^ 53 - (x : ℚ) / 2)| ≤ 1 / 2) ∧
    IsOptimum (plateauP fun x => 2 ^ 53 - (x : ℚ) / 2) (2 ^ 53 - 500) ∧
    Returns (fun fuel => Oracle.bfSolve (2 ^ 31 - 1) fuel 2 plateauMus plateauOmegas) (some (Flt.ofRat binary64 (2 ^ 53 - 172))) := by
  refine ⟨⟨rfl, fun i h h1 => ?_, .cons ⟨rfl, rfl, rfl, rfl, fun x a b => rfl⟩ .nil⟩, fun x h0 h1 => ?_, ⟨?_, ?_⟩, ?_⟩
  · have h3 : i < 3 := h
    interval_cases i
    · exact ⟨rfl, rfl, fun x a b => rfl⟩
    · exact ⟨rfl, rfl, fun x a b => rfl⟩
  · have hx0 : (0 : ℚ) ≤ x := by exact_mod_cast h0
    have hx1 : (x : ℚ) ≤ 1000 := by exact_mod_cast h1
    have hd : (x : ℚ) = 2 * ((x / 2 : Int) : ℚ) + ((x % 2 : Int) : ℚ) := by exact_mod_cast (show x = 2 * (x / 2) + x % 2 by omega)
    have hm0 : (0 : ℚ) ≤ ((x % 2 : Int) : ℚ) := by exact_mod_cast (show 0 ≤ x % 2 by omega)
    have hm1 : ((x % 2 : Int) : ℚ) ≤ 1 := by exact_mod_cast (show x % 2 ≤ 1 by omega)
    have hz : IsFloat binary64 (2 ^ 53 - ((x / 2 : Int) : ℚ)) := by
      rcases lt_or_ge 0 (x / 2) with h | h
      · refine ⟨2 ^ 53 - x / 2, 0, by push_cast; ring, ?_, by decide⟩
        rw [abs_of_nonneg (by omega)]
        show _ < (2 : Int) ^ 53
        omega
      · obtain h : x / 2 = 0 := by omega
        exact ⟨2 ^ 52, 1, by rw [h]; norm_num, by decide, by decide⟩
    rw [abs_sub_comm]
    refine ((round_isRounded (by decide) _).nearest _ hz).trans (abs_le.2 ⟨?_, ?_⟩) <;> linarith
  · refine ⟨fun _ => 0, fun _ => 1000, ⟨fun i _ _ => ⟨le_rfl, le_rfl⟩, fun k hk => ?_⟩, ?_⟩
    · obtain rfl : k = 0 := by simpa [plateauP] using hk
      exact ⟨show (0 : Int) ≤ 1000 by decide, le_rfl, show (0 : Int) - 0 ≤ 1000 by decide⟩
    · rw [plateau_cost]
      norm_num
  · rintro μ ω ⟨-, h⟩
    have h0 := h 0 (by simp [plateauP])
    have : ((ω 0 : Int) : ℚ) ≤ 1000 := by exact_mod_cast h0.2.1
    rw [plateau_cost]
    linarith
  · exact returns_of_eval 30 (by decide +kernel) fun _ _ h => Oracle.bfSolve_le h _ _ _

end AHO.Props
