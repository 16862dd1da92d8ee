import Verif.Proof.Double
import Verif.Proof.Drift
import Verif.Proof.Transform
import Verif.Props.Example
import Lean.Elab.Tactic
/-!
# Properties of the program with `Data = double`

`Flt f` is floating-point arithmetic with rounding in the format `f`; `Flt.ofRat f` takes a number of the format to the
floating-point number of that value. `Format.binary64` is `double`.
-/

namespace AHO.Props
open Spec Format

deriving instance DecidableEq for Flt

/-! ### Rounding -/

/-- the numbers of the format `f` -/
def IsNumber (f : Format) (x : ℚ) : Prop :=
  ∃ k j : Int, x = k * (2 : ℚ) ^ j ∧ |(k : ℚ)| < 2 ^ f.p ∧ f.emin ≤ j ∧ f.p + j ≤ f.emax

/-- Numbers of the format are not changed by rounding. -/
theorem C32_round_number {f : Format} {x : ℚ} (h : IsNumber f x) : f.result x = .fin x := by
  obtain ⟨k, j, rfl, h1, h2, h3⟩ := h
  exact result_exact h2 h1 h3

/-- 3/8 is a `double`, 0.1 is not -/
example : IsNumber binary64 (3 / 8) ∧ binary64.result (1 / 10) ≠ .fin (1 / 10) :=
  ⟨⟨3, -3, by norm_num, by norm_num [binary64], by norm_num [binary64], by norm_num [binary64]⟩, by decide +kernel⟩

/-! ### C32: no rounding occurs -/

/-- C32. If all costs are multiples of `2 ^ j` (`j ≤ 0`) bounded by `G`, and `(1 + 2 N G) (2 N (T + W + 2) + 2) + W + 2`, with `N` the
number of limits, `W` the bound of the ranges and `T = ⌈log₂ (2 (n+1) W)⌉`, is less than `2 ^ (p - 1)` units, then the program with
floating-point numbers of `p` digits computes the exact optimum, and nothing exactly if the constraints cannot be met. -/
theorem C32_floating_point_exact {f : Format} {j : Int} (hp : 1 ≤ f.p) (hj : f.emin ≤ j) (hj0 : j ≤ 0) (hm : f.p + j ≤ f.emax)
    {imax : Int} {P : Problem ℚ} {Mus : List (MuLimit (Flt f))} {Omegas : List (OmegaLimit (Flt f))}
    (rep : Represents (P.mapCosts (Flt.ofRat f)) Mus Omegas) (wf : WellFormed P) (cv : ConvexCosts P)
    (hn : P.n + 1 < 2 ^ 64) (ri : Representable imax P) {W : Nat} (wi : Within P W) (wd : Widths P W)
    (cap : ((6 * (P.n + 1) * bitCeil ((P.n + 1) * W) : Nat) : Int) ≤ imax)
    {G : ℚ} (hG : 0 ≤ G) (hv : P.AllCosts fun v => (∃ k : Int, v = k * (2 : ℚ) ^ j) ∧ |v| ≤ G)
    (hI : (1 + 2 * ((P.pairs.length + P.n : Nat) * G)) *
      (2 * (P.pairs.length + P.n : Nat) * (Nat.clog 2 (2 * (P.n + 1) * W) + W + 2) + 2) + W + 2 < 2 ^ (f.p - 1) * (2 : ℚ) ^ j) :
    ∃ r : Option ℚ, Returns (fun fuel => ProblemSolver.run imax fuel P.n Mus Omegas) (r.map (Flt.ofRat f)) ∧
      (∀ v, r = some v ↔ IsOptimum P v) ∧ (r = none ↔ ¬ Solvable P) := by
  obtain ⟨r, h1, h2⟩ := ProblemSolver.run_float hp hj hj0 hm rep wf cv wi wd ri hn cap hG hv hI
  exact ⟨r, h2, outcome_some h1, outcome_none h1⟩

/-- C32 for `double` and integer costs. -/
theorem C32_double_exact {imax : Int} {P : Problem ℚ} {Mus : List (MuLimit (Flt binary64))}
    {Omegas : List (OmegaLimit (Flt binary64))}
    (rep : Represents (P.mapCosts (Flt.ofRat binary64)) Mus Omegas) (wf : WellFormed P) (cv : ConvexCosts P)
    (hn : P.n + 1 < 2 ^ 64) (ri : Representable imax P) {W : Nat} (wi : Within P W) (wd : Widths P W)
    (cap : ((6 * (P.n + 1) * bitCeil ((P.n + 1) * W) : Nat) : Int) ≤ imax)
    {G : Nat} (hv : P.AllCosts fun v => ∃ k : Int, v = k ∧ |k| ≤ G)
    (hI : (1 + 2 * ((P.pairs.length + P.n) * G)) *
      (2 * (P.pairs.length + P.n) * (Nat.clog 2 (2 * (P.n + 1) * W) + W + 2) + 2) + W + 2 < 2 ^ 52) :
    ∃ r : Option ℚ, Returns (fun fuel => ProblemSolver.run imax fuel P.n Mus Omegas) (r.map (Flt.ofRat binary64)) ∧
      (∀ v, r = some v ↔ IsOptimum P v) ∧ (r = none ↔ ¬ Solvable P) := by
  refine C32_floating_point_exact (j := 0) (G := G) (by decide) (by decide) le_rfl (by decide) rep wf cv hn ri wi wd cap
    (Nat.cast_nonneg _) ⟨?_, ?_⟩ ?_
  · intro i h1 h2 x h3 h4
    obtain ⟨k, hk, hb⟩ := hv.nodes i h1 h2 x h3 h4
    exact ⟨⟨k, by simp [hk]⟩, by rw [hk]; exact_mod_cast hb⟩
  · intro p hp x h3 h4
    obtain ⟨k, hk, hb⟩ := hv.pairs p hp x h3 h4
    exact ⟨⟨k, by simp [hk]⟩, by rw [hk]; exact_mod_cast hb⟩
  · have : binary64.p - 1 = 52 := rfl
    rw [this, zpow_zero, mul_one]
    exact_mod_cast hI

/-- `Mus` of the example in `double` -/
def exMusD : List (MuLimit (Flt binary64)) :=
  [⟨0, 0, fun _ => .error .callback⟩, ⟨-2, 3, fun x => .ok (Flt.ofRat _ (((x : ℚ) - 1) ^ 2))⟩,
    ⟨0, 4, fun x => .ok (Flt.ofRat _ (((x : ℚ) - 2) ^ 2))⟩]

/-- `Omegas` of the example in `double` -/
def exOmegasD : List (OmegaLimit (Flt binary64)) :=
  [⟨⟨-4, -2, fun x => .ok (Flt.ofRat _ (2 * (x : ℚ)))⟩, 1, 2⟩, ⟨⟨0, 5, fun x => .ok (Flt.ofRat _ (3 * (x : ℚ) ^ 2))⟩, 2, 1⟩]

theorem ex_repD : Represents (exP.mapCosts (Flt.ofRat binary64)) exMusD exOmegasD := by
  refine ⟨rfl, ?_, .cons ⟨rfl, rfl, rfl, rfl, fun x a b => rfl⟩ (.cons ⟨rfl, rfl, rfl, rfl, fun x a b => rfl⟩ .nil)⟩
  intro i h h1
  have h3 : i < 3 := h
  interval_cases i <;> exact ⟨rfl, rfl, fun x a b => rfl⟩

theorem ex_costs : exP.AllCosts fun v => ∃ k : Int, v = k ∧ |k| ≤ (75 : Nat) := by
  refine ⟨fun i h1 h2 x h3 h4 => ⟨(x - i) ^ 2, by simp [exP], ?_⟩, fun p hp x h3 h4 => ?_⟩
  · have h5 : i ≤ 2 := h2
    interval_cases i
    · have a : -2 ≤ x := h3
      have b : x ≤ 3 := h4
      interval_cases x <;> decide
    · have a : 0 ≤ x := h3
      have b : x ≤ 4 := h4
      interval_cases x <;> decide
  · simp only [exP, List.mem_cons, List.not_mem_nil, or_false] at hp
    rcases hp with rfl | rfl
    · refine ⟨2 * x, by push_cast; rfl, ?_⟩
      have a : -4 ≤ x := h3
      have b : x ≤ -2 := h4
      interval_cases x <;> decide
    · refine ⟨3 * x ^ 2, by push_cast; rfl, ?_⟩
      have a : 0 ≤ x := h3
      have b : x ≤ 5 := h4
      interval_cases x <;> decide

/-- The example meets the hypotheses of C32. -/
example : ∃ r : Option ℚ, Returns (fun fuel => ProblemSolver.run (2 ^ 31 - 1) fuel exP.n exMusD exOmegasD)
      (r.map (Flt.ofRat binary64)) ∧ (∀ v, r = some v ↔ IsOptimum exP v) ∧ (r = none ↔ ¬ Solvable exP) := by
  refine C32_double_exact ex_repD ex_wf ex_cv ex_n ex_representable (W := 8) ?_ ex_widths ?_ ex_costs ?_
  · have := ex_within
    refine ⟨fun i h1 h2 => ?_, fun i h1 h2 => ?_, fun p hp => ?_, fun p hp => ?_⟩
    · have := this.lo i h1 h2; push_cast; omega
    · have := this.hi i h1 h2; push_cast; omega
    · have := this.u p hp; push_cast; omega
    · have := this.diff p hp; push_cast; omega
  · rw [ex_bitCeil]; simp [exP]
  · have : Nat.clog 2 48 = 6 := by decide +kernel
    simp [exP, this]

/-! ### C37: with other costs the program fails -/

/-- the `double` nearest to `x` -/
def dbl (x : ℚ) : ℚ := binary64.round x

/-- `μ₁` can only be -1, at cost 0.6, and `μ₂` can only be 1, at cost 0.1 -/
def tenthP : Problem ℚ where
  n := 2
  lo i := if i = 1 then -1 else 1
  hi i := if i = 1 then -1 else 1
  F i _ := if i = 1 then dbl (6 / 10) else dbl (1 / 10)
  pairs := []

/-- `Mus` for `tenthP` -/
def tenthMus : List (MuLimit (Flt binary64)) :=
  [⟨0, 0, fun _ => .error .callback⟩, ⟨-1, -1, fun _ => .ok (Flt.ofRat _ (dbl (6 / 10)))⟩,
    ⟨1, 1, fun _ => .ok (Flt.ofRat _ (dbl (1 / 10)))⟩]

/-- C37. With `double` the program can return nothing although the constraints can be met: here there are two variables, each with
one possible value, and no pairs. The costs are the `double`s nearest to 0.6 and 0.1. -/
theorem C37_double_nullopt_though_feasible :
    Represents (tenthP.mapCosts (Flt.ofRat binary64)) tenthMus [] ∧ WellFormed tenthP ∧ ConvexCosts tenthP ∧
    Capacity (2 ^ 31 - 1) tenthP ∧ tenthP.AllCosts (IsNumber binary64) ∧ Solvable tenthP ∧
    Returns (fun fuel => ProblemSolver.run (2 ^ 31 - 1) fuel tenthP.n tenthMus []) none := by
  have n1 : IsNumber binary64 (dbl (1 / 10)) := ⟨7205759403792794, -56, by decide +kernel, by decide +kernel, by decide, by decide⟩
  have n6 : IsNumber binary64 (dbl (6 / 10)) := ⟨5404319552844595, -53, by decide +kernel, by decide +kernel, by decide, by decide⟩
  have hb : Nat.clog 2 3 = 2 := by decide +kernel
  refine ⟨⟨rfl, ?_, .nil⟩, ?_, ?_, ⟨?_, 1, ?_, ?_, ?_⟩, ⟨?_, ?_⟩,
    ⟨fun i => if i = 1 then -1 else 1, fun _ => 0, ?_, ?_⟩,
    returns_of_eval 60 (by decide +kernel) fun _ _ h => ProblemSolver.run_le h _ _ _⟩
  · intro i h h1
    have h3 : i < 3 := h
    interval_cases i <;> exact ⟨rfl, rfl, fun x a b => rfl⟩
  · constructor <;> simp [tenthP]
  · constructor
    · intro i _ _ x h1 h2
      simp only [tenthP]
      rfl
    · simp [tenthP]
  · constructor <;> simp [tenthP]
  · constructor
    · intro i _ _; simp only [tenthP]; split <;> decide
    · intro i _ _; simp only [tenthP]; split <;> decide
    · simp [tenthP]
    · simp [tenthP]
  · constructor <;> simp [tenthP]
  · simp [tenthP, bitCeil, hb]
  · intro i _ _ x _ _
    simp only [tenthP]
    split
    · exact n6
    · exact n1
  · simp [tenthP]
  · intro i _ _; exact ⟨le_rfl, le_rfl⟩
  · intro k hk; exact absurd hk (by simp [tenthP])

/-! ### C38: the program need not end -/

/-- `μ₁` can only be -1, at no cost; `μ₂` is -1, at no cost, or 0, at cost 0.6 -/
def driftP : Problem ℚ where
  n := 2
  lo _ := -1
  hi i := if i = 1 then -1 else 0
  F i x := if i = 1 then 0 else if x = -1 then 0 else dbl (6 / 10)
  pairs := []

/-- `Mus` for `driftP` -/
def driftMus : List (MuLimit (Flt binary64)) :=
  [⟨0, 0, fun _ => .error .callback⟩, ⟨-1, -1, fun _ => .ok (Flt.ofRat _ 0)⟩,
    ⟨-1, 0, fun x => .ok (Flt.ofRat _ (if x = -1 then 0 else dbl (6 / 10)))⟩]

theorem drift_rep : Represents (driftP.mapCosts (Flt.ofRat binary64)) driftMus [] := by
  refine ⟨rfl, ?_, .nil⟩
  intro i h h1
  have h3 : i < 3 := h
  interval_cases i <;> exact ⟨rfl, rfl, fun x a b => rfl⟩

theorem drift_wf : WellFormed driftP := by
  constructor <;> simp [driftP]
  intro i _ _; split <;> decide

theorem drift_cv : ConvexCosts driftP := by
  constructor
  · intro i _ _ x h1 h2
    simp only [driftP] at h1 h2 ⊢
    split at h2
    · omega
    · omega
  · simp [driftP]

theorem drift_capacity : Capacity 72 driftP := by
  have hb : Nat.clog 2 3 = 2 := by decide +kernel
  refine ⟨by constructor <;> simp [driftP], 1, ?_, ?_, ?_⟩
  · constructor
    · simp [driftP]
    · intro i _ _; simp only [driftP]; split <;> decide
    · simp [driftP]
    · simp [driftP]
  · constructor
    · intro i _ _; simp only [driftP]; split <;> decide
    · simp [driftP]
  · simp [driftP, bitCeil, hb]

theorem drift_numbers : driftP.AllCosts (IsNumber binary64) := by
  have n0 : IsNumber binary64 0 := ⟨0, 0, by norm_num, by norm_num, by decide, by decide⟩
  have n6 : IsNumber binary64 (dbl (6 / 10)) := ⟨5404319552844595, -53, by decide +kernel, by decide +kernel, by decide, by decide⟩
  refine ⟨?_, by simp [driftP]⟩
  intro i _ _ x _ _
  simp only [driftP]
  split
  · exact n0
  · split
    · exact n0
    · exact n6

theorem drift_solvable : Solvable driftP := by
  refine ⟨fun _ => -1, fun _ => 0, ?_, ?_⟩
  · intro i _ _; simp only [driftP]; refine ⟨le_rfl, ?_⟩; split <;> decide
  · intro k hk; exact absurd hk (by simp [driftP])

/-- the limits of `driftP` -/
def driftLimits : List (OmegaLimit (Flt binary64)) :=
  [⟨⟨-1, -1, fun _ => .ok (Flt.ofRat _ 0)⟩, 1, 0⟩,
    ⟨⟨-1, 0, fun x => .ok (Flt.ofRat _ (if x = -1 then 0 else dbl (6 / 10)))⟩, 2, 0⟩]

/-- The first steps of the program: 21 rounds of the loop of `Flow::refine`, and 14 more. The result of the last 14 is compared with
the state before at the positions `k`. -/
def driftCheck (imax : Int) (k : Nat) : Res Bool := do
  let a ← ProblemSolver.calc' imax 60 driftLimits
  let s ← Flow.mk' imax 60 2 a.2.1 a.2.2 driftLimits
  let s1 ← Flow.pushAllAdmissibleEdge imax s.initialization
  let s2 ← Flow.rounds imax 60 21 s1
  let s3 ← Flow.rounds imax 60 14 s2
  .ok (decide (2 ≤ s.epsilon) && Flow.sameSize s2 s3 && Flow.sameAt 8 s2 s3 k && decide (s2.scaling.size = 3) &&
    decide (0 ≤ s2.scaling.get 0) && decide (s2.scaling.get 0 ≤ imax) && decide (s2.scaling.get 1 ≤ imax) &&
    decide (s2.scaling.get 2 ≤ imax))

open Lean Elab Tactic Meta in
/-- proves `a = b` for `a` which evaluates to `b`, by evaluation in the kernel; `a` may contain variables -/
elab "kernel_eval" : tactic => do
  let g ← getMainGoal
  let some (_, _, b) := (← instantiateMVars (← g.getType)).eq? | throwError "not an equation"
  g.assign (← mkEqRefl b)

theorem driftCheck_lt : ∀ k, k < 4 → driftCheck 1000 k = .ok true := by decide +kernel

theorem driftCheck_ge (k : Nat) : driftCheck 1000 (k + 4) = .ok true := by kernel_eval

/-- with any larger `int` and much fuel, the loop of `Flow::refine` overflows in the first phase -/
theorem drift_minCost {imax : Int} (hi : 1000 ≤ imax) : ∃ N, ∀ fuel, N ≤ fuel → ∃ vcm M U,
    ProblemSolver.calc' imax fuel driftLimits = .ok (vcm, M, U) ∧
    (Flow.mk' imax fuel 2 M U driftLimits >>= Flow.minCost imax fuel) = .error .overflow := by
  obtain ⟨a, ha, h⟩ := bind_eq_ok.1 (driftCheck_lt 0 (by decide))
  obtain ⟨s, hs, h⟩ := bind_eq_ok.1 h
  obtain ⟨s1, hs1, h⟩ := bind_eq_ok.1 h
  obtain ⟨s2, hs2, h⟩ := bind_eq_ok.1 h
  obtain ⟨s3, hs3, h⟩ := bind_eq_ok.1 h
  have hk : ∀ k, Flow.sameAt 8 s2 s3 k = true := by
    intro k
    have : driftCheck 1000 k = .ok true := by
      rcases Nat.lt_or_ge k 4 with hk | hk
      · exact driftCheck_lt k hk
      · obtain ⟨m, rfl⟩ := Nat.exists_eq_add_of_le' hk
        exact driftCheck_ge m
    unfold driftCheck at this
    simp only [ha, hs, hs1, hs2, hs3, ok_bind, Except.ok.injEq, Bool.and_eq_true] at this
    exact this.1.1.1.1.1.2
  simp only [Except.ok.injEq, Bool.and_eq_true, decide_eq_true_eq] at h
  obtain ⟨⟨⟨⟨⟨⟨⟨heps, hz⟩, -⟩, h3⟩, h0⟩, b0⟩, b1⟩, b2⟩ := h
  have r1 := Flow.rounds_sound hs2
  have r2 := Flow.rounds_sound hs3
  rw [Flow.eq_shift hz hk r2.core] at r2
  -- the number of repetitions
  refine ⟨62 + 21 + 14 * imax.toNat, fun fuel hf => ?_⟩
  have h60 : 60 ≤ fuel := by omega
  obtain ⟨vcm, M, U⟩ := a
  refine ⟨vcm, M, U, ?_, ?_⟩
  · have h1 := ProblemSolver.calcLoop_wid hi 60 (List.forall₂_same.2 fun e (_ : e ∈ driftLimits) => WE.refl e) (0, 1, 0)
    have h2 : ProblemSolver.calcLoop 1000 60 driftLimits (0, 1, 0) = .ok (vcm, M, U) := ha
    rw [h2] at h1
    generalize hy : ProblemSolver.calcLoop imax 60 driftLimits (0, 1, 0) = y at h1
    cases h1 with
    | ok e =>
      subst e
      rcases ProblemSolver.calcLoop_le (imax := imax) h60 driftLimits (0, 1, 0) with h | h
      · rw [hy] at h; cases h
      · exact h.symm.trans hy
  · have h1 := Flow.mk'_wid hi 60 2 M U (List.forall₂_same.2 fun e (_ : e ∈ driftLimits) => WE.refl e)
    dsimp only at hs
    rw [hs] at h1
    generalize hy : Flow.mk' imax 60 2 M U driftLimits = y at h1
    cases h1 with
    | @ok _ s' hw =>
      have e1 : Flow.mk' imax fuel 2 M U driftLimits = .ok s' := by
        rcases Flow.mk'_le (imax := imax) h60 2 M U driftLimits with h | h
        · rw [hy] at h; cases h
        · exact h.symm.trans hy
      have hwi : Flow.WF s.initialization s'.initialization :=
        hw.elim (P := fun s' => Flow.WF s.initialization s'.initialization) fun E hE => ⟨rfl, hE⟩
      have h2 := Flow.pushAll_wid hi hwi
      rw [hs1] at h2
      generalize hy2 : Flow.pushAllAdmissibleEdge imax s'.initialization = y2 at h2
      cases h2 with
      | @ok _ s1' hw1 =>
        obtain ⟨s2', q1, hw2⟩ := r1.wid hi hw1
        have q2 := (r2.wid_shift hi hw2).mono h60
        have q1 := q1.mono h60
        have hsc : s2'.scaling = s2.scaling := by rw [hw2.eq]
        have hb : Flow.Bounded imax (s2'.shift 0) := by
          rw [Flow.shift_zero]
          intro k hk
          rw [hsc] at hk ⊢
          rw [h3] at hk
          interval_cases k <;> omega
        have hloop := q2.overflow (by decide) (by rw [hsc, h3]; decide) (by rw [hsc]; exact h0) imax.toNat 0 (by omega) hb
        have hover : Flow.refineLoop imax fuel fuel s1' = .error .overflow := by
          obtain ⟨g, rfl⟩ : ∃ g, fuel = g + 14 * imax.toNat + 21 := ⟨fuel - (14 * imax.toNat + 21), by omega⟩
          rw [q1.loop, ← Flow.shift_zero s2', hloop]
        have hphase : Flow.phase imax fuel s' = .error .overflow := by
          unfold Flow.phase
          dsimp only
          rw [hy2, ok_bind]
          unfold Flow.refine
          unfold Flow.refineLoop at hover
          rw [hover]
          rfl
        rw [e1, ok_bind]
        unfold Flow.minCost Flow.phases
        obtain ⟨g, hg⟩ : ∃ g, fuel = g + 1 := ⟨fuel - 1, by omega⟩
        have hloop' : whileLoop (fun s : Flow (Flt binary64) => .ok (decide (s.epsilon ≥ 2))) (Flow.phase imax fuel) fuel s' =
            .error .overflow := by
          conv_lhs => rw [hg]
          unfold whileLoop
          rw [← hg, hphase]
          have : s'.epsilon = s.epsilon := by rw [hw.eq]
          simp [this, heps]
        rw [hloop']
        rfl

/-- C38. With `double` the program need not end: whatever the size of `int`, the loop of `Flow::refine` goes on until a potential
overflows. An imbalance which stems from rounding is passed round forever. The instance has two variables, no pairs and a single cost
other than 0, the `double` nearest to 0.6; an `int` of maximal value 72 has the documented capacity. -/
theorem C38_double_never_returns : Represents (driftP.mapCosts (Flt.ofRat binary64)) driftMus [] ∧ WellFormed driftP ∧
    ConvexCosts driftP ∧ Capacity 72 driftP ∧ driftP.AllCosts (IsNumber binary64) ∧ Solvable driftP ∧
    ∀ imax, ∃ N, ∀ fuel, N ≤ fuel → ProblemSolver.run imax fuel driftP.n driftMus [] = .error .overflow := by
  refine ⟨drift_rep, drift_wf, drift_cv, drift_capacity, drift_numbers, drift_solvable, fun imax => ?_⟩
  obtain ⟨N, hN⟩ := drift_minCost (imax := max imax 1000) (le_max_right _ _)
  refine ⟨N, fun fuel hf => ?_⟩
  obtain ⟨vcm, M, U, h1, h2⟩ := hN fuel hf
  have hrun : ProblemSolver.run (max imax 1000) fuel driftP.n driftMus [] = .error .overflow := by
    have e1 : ProblemSolver.mk' (max imax 1000) fuel driftP.n driftMus [] = .ok ⟨2, driftMus, []⟩ := by
      have : ProblemSolver.checkMus driftMus 1 driftP.n = .ok true := by decide +kernel
      unfold ProblemSolver.mk'
      rw [if_neg (by decide), this]
      rfl
    have e2 : ProblemSolver.mergeLimits (max imax 1000) ⟨2, driftMus, []⟩ = .ok (some driftLimits) := rfl
    unfold ProblemSolver.run
    rw [e1, ok_bind]
    unfold ProblemSolver.solve
    rw [if_neg (by decide), e2, ok_bind]
    dsimp only
    rw [h1, ok_bind]
    cases hm : Flow.mk' (max imax 1000) fuel 2 M U driftLimits with
    | error e =>
      rw [hm] at h2
      exact congrArg _ (Except.error.inj h2)
    | ok s =>
      rw [hm, ok_bind] at h2
      rw [ok_bind, h2]
      rfl
  have hw := ProblemSolver.run_wid (le_max_left imax 1000) fuel driftP.n driftMus []
  rw [hrun] at hw
  generalize ProblemSolver.run imax fuel driftP.n driftMus [] = x at hw
  cases hw <;> rfl

end AHO.Props
