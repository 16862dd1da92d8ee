import Verif.Proof.Integral
import Verif.Proof.Relations
import Verif.Props.Solver
/-!
# Fractional assignments; how the result depends on the input
-/

namespace AHO.Props
open Spec

section
variable {K : Type} [Field K] [LinearOrder K] [IsStrictOrderedRing K]
variable {P Q R : Problem K} {Mus Mus₁ Mus₂ : List (MuLimit K)} {Omegas Omegas₁ Omegas₂ : List (OmegaLimit K)} {imax : Int}

/-! ### C77: variables which need not be integers -/

/-- C77. The program solves the problem also for variables which need not be integers: the result is the least cost of a fractional
assignment, where the costs are continued linearly between the integers; and nothing is returned exactly if no fractional assignment satisfies
the constraints. -/
theorem C77_fractional (rep : Represents P Mus Omegas) (wf : WellFormed P) (cv : ConvexCosts P)
    (hn : P.n + 1 < 2 ^ 64) (cap : Capacity imax P) :
    ∃ r, Returns (fun fuel => ProblemSolver.run imax fuel P.n Mus Omegas) r ∧
      (∀ v, r = some v ↔ IsLeast {c | ∃ μ ω, RelaxedFeasible P μ ω ∧ c = relaxedCost P μ ω} v) ∧
      (r = none ↔ ¬ ∃ μ ω, RelaxedFeasible P μ ω) := by
  obtain ⟨r, h1, h2⟩ := ProblemSolver.run_capacity rep wf cv hn cap
  refine ⟨r, h2, fun v => ?_, ?_⟩
  · rw [outcome_some h1]
    constructor
    · rintro ⟨⟨μ, ω, f, e⟩, h⟩
      obtain ⟨a, b⟩ := relaxed_of_int f
      refine ⟨⟨_, _, a, by rw [b, e]⟩, ?_⟩
      rintro _ ⟨μ', ω', f', rfl⟩
      obtain ⟨μ'', ω'', f'', h''⟩ := round_relaxed wf f'
      exact (h _ _ f'').trans h''
    · rintro ⟨⟨μ, ω, f, e⟩, h⟩
      have low : ∀ μ ω, Feasible P μ ω → v ≤ cost P μ ω := by
        intro μ' ω' f'
        obtain ⟨a, b⟩ := relaxed_of_int f'
        exact h ⟨_, _, a, b.symm⟩
      obtain ⟨μ', ω', f', h'⟩ := round_relaxed wf f
      exact ⟨⟨μ', ω', f', le_antisymm (e ▸ h') (low _ _ f')⟩, low⟩
  · rw [outcome_none h1, not_iff_not]
    constructor
    · rintro ⟨μ, ω, f⟩
      exact ⟨_, _, (relaxed_of_int f).1⟩
    · rintro ⟨μ, ω, f⟩
      obtain ⟨μ', ω', f', -⟩ := round_relaxed wf f
      exact ⟨μ', ω', f'⟩

/-- The fractional assignment `μ = (-1/2, 3/2)`, `ω = (-2, 2)` of `exP` costs 11, the optimum is 9: the costs of the nodes are the mean of 4 and 1 and the mean of
1 and 0. -/
example : RelaxedFeasible exP (fun i => if i = 1 then -1 / 2 else 3 / 2) (fun k => if k = 0 then -2 else 2) ∧
    relaxedCost exP (fun i => if i = 1 then -1 / 2 else 3 / 2) (fun k => if k = 0 then -2 else 2) = 11 := by
  refine ⟨⟨fun i h1 h2 => ?_, fun k hk => ?_⟩, by decide +kernel⟩
  · have h3 : i ≤ 2 := h2
    interval_cases i <;> norm_num [exP]
  · have h3 : k < 2 := hk
    interval_cases k <;> norm_num [exP]

/-! ### C78: the result is a convex function of the limits -/

/-- C78. If the limits of a problem are midway between those of two others with the same costs, its result is at most the mean of the other
results; in particular it has a result if the others have. -/
theorem C78_convex_in_limits (m : Midway P Q R) (rep : Represents P Mus Omegas) (rep₁ : Represents Q Mus₁ Omegas₁) (rep₂ : Represents R Mus₂ Omegas₂)
    (wf : WellFormed P) (wf₁ : WellFormed Q) (wf₂ : WellFormed R) (cv : ConvexCosts P) (cv₁ : ConvexCosts Q) (cv₂ : ConvexCosts R)
    (hn : P.n + 1 < 2 ^ 64) (cap : Capacity imax P) (cap₁ : Capacity imax Q) (cap₂ : Capacity imax R) :
    ∃ r r₁ r₂, Returns (fun fuel => ProblemSolver.run imax fuel P.n Mus Omegas) r ∧
      Returns (fun fuel => ProblemSolver.run imax fuel P.n Mus₁ Omegas₁) r₁ ∧
      Returns (fun fuel => ProblemSolver.run imax fuel P.n Mus₂ Omegas₂) r₂ ∧
      ∀ v₁ v₂, r₁ = some v₁ → r₂ = some v₂ → ∃ v, r = some v ∧ v ≤ (v₁ + v₂) / 2 := by
  obtain ⟨r, h1, h2⟩ := ProblemSolver.run_capacity rep wf cv hn cap
  obtain ⟨r₁, a1, a2⟩ := ProblemSolver.run_capacity rep₁ wf₁ cv₁ (by rw [m.n.1]; exact hn) cap₁
  obtain ⟨r₂, b1, b2⟩ := ProblemSolver.run_capacity rep₂ wf₂ cv₂ (by rw [m.n.2]; exact hn) cap₂
  rw [m.n.1] at a2
  rw [m.n.2] at b2
  refine ⟨r, r₁, r₂, h2, a2, b2, fun v₁ v₂ e₁ e₂ => ?_⟩
  have o₁ := (outcome_some a1 v₁).1 e₁
  have o₂ := (outcome_some b1 v₂).1 e₂
  have s := solvable_midway wf m (by obtain ⟨⟨μ, ω, f, -⟩, -⟩ := o₁; exact ⟨μ, ω, f⟩) (by obtain ⟨⟨μ, ω, f, -⟩, -⟩ := o₂; exact ⟨μ, ω, f⟩)
  cases hr : r with
  | none => exact absurd s ((outcome_none h1).1 hr)
  | some v =>
    refine ⟨v, rfl, ?_⟩
    rw [le_div_iff₀ (by norm_num), mul_comm]
    exact optimum_midway wf m ((outcome_some h1 v).1 hr) o₁ o₂

/-- `exP` with the upper limit `k` of the first variable -/
def limP (k : Int) : Problem ℚ := { exP with hi := fun i => if i = 1 then k else 4 }

/-- The hypotheses are met by the limits 2, 1 and 3. -/
example : Midway (limP 2) (limP 1) (limP 3) ∧ ∀ k, 1 ≤ k → k ≤ 3 → WellFormed (limP k) ∧ ConvexCosts (limP k) ∧ Capacity (2 ^ 31 - 1) (limP k) := by
  refine ⟨⟨⟨rfl, rfl⟩, fun _ _ _ => ⟨rfl, rfl⟩, fun i h1 h2 => ?_, fun i h1 h2 => ?_, fun i _ _ x _ _ => ?_, ⟨rfl, rfl⟩, fun k p q r hp hq hr => ?_⟩, fun k h1 h3 => ?_⟩
  · have h3 : i ≤ 2 := h2
    interval_cases i <;> simp [limP, exP]
  · have h3 : i ≤ 2 := h2
    interval_cases i <;> simp [limP]
  · simp only [limP, exP]
    push_cast
    nlinarith
  · have e1 : (limP 1).pairs = (limP 2).pairs := rfl
    have e2 : (limP 3).pairs = (limP 2).pairs := rfl
    rw [e1, hp] at hq
    rw [e2, hp] at hr
    cases hq
    cases hr
    refine ⟨rfl, rfl, rfl, rfl, rfl, rfl, by omega, by omega, ?_⟩
    rw [min_self, max_self]
    exact ex_cv.pairs p (List.mem_of_getElem? hp)
  · have sh : exP.Shrinks (limP k) := by
      refine ⟨rfl, fun _ _ _ => le_rfl, fun i h1 h2 => ?_, fun _ _ _ => rfl, .cons ⟨rfl, rfl, le_rfl, le_rfl, rfl⟩ (.cons ⟨rfl, rfl, le_rfl, le_rfl, rfl⟩ .nil)⟩
      have h4 : i ≤ 2 := h2
      interval_cases i <;> simp [limP, exP, h3]
    refine ⟨⟨fun i h4 h5 => ?_, ex_wf.i_pos, ex_wf.i_le, ex_wf.j_pos, ex_wf.j_le, ex_wf.ne, ex_wf.le⟩, cv_shrinks sh ex_cv, cap_shrinks sh ex_wf ex_capacity⟩
    have h6 : i ≤ 2 := h5
    interval_cases i
    · simp only [limP, exP, if_true]; omega
    · simp [limP, exP]

/-! ### C79: related problems -/

/-- C79. If all costs are multiplied by `a > 0`, so is the result. -/
theorem C79_scale {a : K} (ha : 0 < a) (rep : Represents P Mus Omegas) (rep₁ : Represents (P.scale a) Mus₁ Omegas₁) (wf : WellFormed P)
    (cv : ConvexCosts P) (hn : P.n + 1 < 2 ^ 64) (cap : Capacity imax P) :
    ∃ r, Returns (fun fuel => ProblemSolver.run imax fuel P.n Mus Omegas) r ∧
      Returns (fun fuel => ProblemSolver.run imax fuel P.n Mus₁ Omegas₁) (r.map (a * ·)) := by
  obtain ⟨r, h1, h2⟩ := ProblemSolver.run_capacity rep wf cv hn cap
  obtain ⟨r₁, a1, a2⟩ := ProblemSolver.run_capacity rep₁ (wf_scale wf) (cv_scale ha.le cv) hn (cap_scale cap)
  rw [outcome_scale ha h1 a1] at a2
  exact ⟨r, h2, a2⟩

/-- The costs of the example, seven times. -/
example : ∃ Mus₁ Omegas₁, Represents (exP.scale 7) Mus₁ Omegas₁ ∧ ∃ r, Returns (fun fuel => ProblemSolver.run (2 ^ 31 - 1) fuel exP.n exMus exOmegas) r ∧
    Returns (fun fuel => ProblemSolver.run (2 ^ 31 - 1) fuel exP.n Mus₁ Omegas₁) (r.map (7 * ·)) := by
  obtain ⟨M, O, h⟩ := exists_rep (exP.scale 7)
  exact ⟨M, O, h, C79_scale (by norm_num) ex_rep h ex_wf ex_cv ex_n ex_capacity⟩

/-- C79. If the signs of all `μ` are changed, the ends of the pairs exchanged, the result is the same. -/
theorem C79_mirror (rep : Represents P Mus Omegas) (rep₁ : Represents P.mirror Mus₁ Omegas₁) (wf : WellFormed P)
    (cv : ConvexCosts P) (hn : P.n + 1 < 2 ^ 64) (cap : Capacity imax P) :
    ∃ r, Returns (fun fuel => ProblemSolver.run imax fuel P.n Mus Omegas) r ∧
      Returns (fun fuel => ProblemSolver.run imax fuel P.n Mus₁ Omegas₁) r := by
  obtain ⟨r, h1, h2⟩ := ProblemSolver.run_capacity rep wf cv hn cap
  obtain ⟨r₁, a1, a2⟩ := ProblemSolver.run_capacity rep₁ (wf_mirror wf) (cv_mirror cv) hn (cap_mirror cap)
  rw [costs_mirror] at a1
  rw [outcome_unique a1 h1] at a2
  exact ⟨r, h2, a2⟩

/-- The example with the signs changed. -/
example : ∃ Mus₁ Omegas₁, Represents exP.mirror Mus₁ Omegas₁ ∧ ∃ r, Returns (fun fuel => ProblemSolver.run (2 ^ 31 - 1) fuel exP.n exMus exOmegas) r ∧
    Returns (fun fuel => ProblemSolver.run (2 ^ 31 - 1) fuel exP.n Mus₁ Omegas₁) r := by
  obtain ⟨M, O, h⟩ := exists_rep exP.mirror
  exact ⟨M, O, h, C79_mirror ex_rep h ex_wf ex_cv ex_n ex_capacity⟩

/-- C79. If every cost is changed by at most `δ`, the result changes by at most `δ` times the number of limits; whether there is one does not change. -/
theorem C79_stable {δ : K} (near : P.Near Q δ) (rep : Represents P Mus Omegas) (rep₁ : Represents Q Mus₁ Omegas₁) (wf : WellFormed P) (wf₁ : WellFormed Q)
    (cv : ConvexCosts P) (cv₁ : ConvexCosts Q) (hn : P.n + 1 < 2 ^ 64) (cap : Capacity imax P) (cap₁ : Capacity imax Q) :
    ∃ r r₁, Returns (fun fuel => ProblemSolver.run imax fuel P.n Mus Omegas) r ∧
      Returns (fun fuel => ProblemSolver.run imax fuel P.n Mus₁ Omegas₁) r₁ ∧
      (r = none ↔ r₁ = none) ∧ ∀ v w, r = some v → r₁ = some w → |w - v| ≤ ((P.n + P.pairs.length : Nat) : K) * δ := by
  obtain ⟨r, h1, h2⟩ := ProblemSolver.run_capacity rep wf cv hn cap
  obtain ⟨r₁, a1, a2⟩ := ProblemSolver.run_capacity rep₁ wf₁ cv₁ (by rw [near.n]; exact hn) cap₁
  rw [near.n] at a2
  exact ⟨r, r₁, h2, a2, outcome_near near h1 a1⟩

/-- C79. Two problems in one: the result is the sum of the results, and nothing if one of them has no solution. -/
theorem C79_union (rep : Represents P Mus Omegas) (rep₁ : Represents Q Mus₁ Omegas₁) (rep₂ : Represents (P.union Q) Mus₂ Omegas₂) (wf : WellFormed P)
    (wf₁ : WellFormed Q) (cv : ConvexCosts P) (cv₁ : ConvexCosts Q) (hn : P.n + Q.n + 1 < 2 ^ 64) (cap : Capacity imax P) (cap₁ : Capacity imax Q)
    (cap₂ : Capacity imax (P.union Q)) :
    ∃ r r₁, Returns (fun fuel => ProblemSolver.run imax fuel P.n Mus Omegas) r ∧
      Returns (fun fuel => ProblemSolver.run imax fuel Q.n Mus₁ Omegas₁) r₁ ∧
      Returns (fun fuel => ProblemSolver.run imax fuel (P.n + Q.n) Mus₂ Omegas₂) (r.bind fun v => r₁.map (v + ·)) := by
  obtain ⟨r, h1, h2⟩ := ProblemSolver.run_capacity rep wf cv (by omega) cap
  obtain ⟨r₁, a1, a2⟩ := ProblemSolver.run_capacity rep₁ wf₁ cv₁ (by omega) cap₁
  obtain ⟨r₂, b1, b2⟩ := ProblemSolver.run_capacity rep₂ (wf_union wf wf₁) (cv_union cv cv₁) hn cap₂
  rw [outcome_union wf wf₁ h1 a1 b1] at b2
  exact ⟨r, r₁, h2, a2, b2⟩

end

/-- Representations of the changed problems exist. -/
example : (∃ Mus' Omegas', Represents (exP.scale 7) Mus' Omegas') ∧ (∃ Mus' Omegas', Represents exP.mirror Mus' Omegas') ∧
    (∃ Mus' Omegas', Represents (exP.union exP) Mus' Omegas') := ⟨exists_rep _, exists_rep _, exists_rep _⟩

/-- The costs may differ by 1/10; `exP` beside itself is small enough. -/
example : exP.Near { exP with F := fun i x => exP.F i x + 1 / 10 } (1 / 10) ∧ Capacity (2 ^ 31 - 1) (exP.union exP) := by
  refine ⟨⟨rfl, fun _ _ _ => rfl, fun _ _ _ => rfl, fun i _ _ x _ _ => by norm_num, ?_⟩, ⟨?_, ?_⟩, 8, ⟨?_, ?_, ?_, ?_⟩, ⟨?_, ?_⟩, ?_⟩
  · exact .cons ⟨rfl, rfl, rfl, rfl, fun _ _ _ => by norm_num⟩ (.cons ⟨rfl, rfl, rfl, rfl, fun _ _ _ => by norm_num⟩ .nil)
  · simp [exP, Problem.union]
  · simp [exP, Problem.union]
  · intro i h1 h2
    have h3 : i ≤ 4 := h2
    interval_cases i <;> simp [exP, Problem.union]
  · intro i h1 h2
    have h3 : i ≤ 4 := h2
    interval_cases i <;> simp [exP, Problem.union]
  · simp [exP, Problem.union]
  · simp [exP, Problem.union]
  · intro i h1 h2
    have h3 : i ≤ 4 := h2
    interval_cases i <;> simp [exP, Problem.union]
  · simp [exP, Problem.union]
  · have : bitCeil (((exP.union exP).n + 1) * 8) = 64 := by decide +kernel
    rw [this]
    simp [exP, Problem.union]

end AHO.Props
