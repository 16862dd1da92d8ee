import Verif.Proof.Lattice
import Verif.Props.Relations
/-!
# Optimal assignments under different limits of the variables
-/

namespace AHO.Props
open Spec

section
variable {K : Type} [Field K] [LinearOrder K] [IsStrictOrderedRing K]
variable {P : Problem K} {Mus Mus₁ Mus₂ Mus₃ : List (MuLimit K)} {Omegas Omegas₁ Omegas₂ Omegas₃ : List (OmegaLimit K)} {imax : Int} {lo hi lo' hi' : Nat → Int}

/-- C86. The result is a submodular function of the limits of the variables: the results for the least and for the greatest of two sets of limits, taken for each
limit, add up to at most the sum of the results for the two sets; both exist if the latter do. -/
theorem C86_submodular (wf : WellFormed P) (cv : ConvexCosts P) (hn : P.n + 1 < 2 ^ 64) (cap : Capacity imax P) (ins : Inside P lo hi) (ins' : Inside P lo' hi')
    (rep : Represents (P.restrict lo hi) Mus Omegas) (rep₁ : Represents (P.restrict lo' hi') Mus₁ Omegas₁)
    (rep₂ : Represents (P.restrict (fun i => min (lo i) (lo' i)) fun i => min (hi i) (hi' i)) Mus₂ Omegas₂)
    (rep₃ : Represents (P.restrict (fun i => max (lo i) (lo' i)) fun i => max (hi i) (hi' i)) Mus₃ Omegas₃) :
    ∃ r r₁ r₂ r₃, Returns (fun fuel => ProblemSolver.run imax fuel P.n Mus Omegas) r ∧
      Returns (fun fuel => ProblemSolver.run imax fuel P.n Mus₁ Omegas₁) r₁ ∧
      Returns (fun fuel => ProblemSolver.run imax fuel P.n Mus₂ Omegas₂) r₂ ∧
      Returns (fun fuel => ProblemSolver.run imax fuel P.n Mus₃ Omegas₃) r₃ ∧
      ∀ v v₁, r = some v → r₁ = some v₁ → ∃ v₂ v₃, r₂ = some v₂ ∧ r₃ = some v₃ ∧ v₂ + v₃ ≤ v + v₁ := by
  have key : ∀ {lo hi : Nat → Int} {Mus Omegas}, Inside P lo hi → Represents (P.restrict lo hi) Mus Omegas →
      ∃ r, Outcome (ProblemSolver.problemCosts (P.restrict lo hi)) r ∧ Returns (fun fuel => ProblemSolver.run imax fuel P.n Mus Omegas) r :=
    fun {lo hi Mus Omegas} i rep => ProblemSolver.run_capacity rep (wf_restrict wf i) (cv_shrinks (restrict_shrinks i) cv) hn (cap_shrinks (restrict_shrinks i) wf cap)
  obtain ⟨r, a, b⟩ := key ins rep
  obtain ⟨r₁, a₁, b₁⟩ := key ins' rep₁
  obtain ⟨r₂, a₂, b₂⟩ := key (inside_min ins ins') rep₂
  obtain ⟨r₃, a₃, b₃⟩ := key (inside_max ins ins') rep₃
  refine ⟨r, r₁, r₂, r₃, b, b₁, b₂, b₃, fun v v₁ e e₁ => ?_⟩
  obtain ⟨⟨μ, ω, f, rfl⟩, -⟩ := (outcome_some a v).1 e
  obtain ⟨⟨μ', ω', f', rfl⟩, -⟩ := (outcome_some a₁ v₁).1 e₁
  obtain ⟨ω₁, ω₂, g₁, g₂, hc⟩ := exchange cv.pairs f f'
  cases e₂ : r₂ with
  | none => exact absurd ⟨_, _, g₁⟩ ((outcome_none a₂).1 e₂)
  | some v₂ =>
    cases e₃ : r₃ with
    | none => exact absurd ⟨_, _, g₂⟩ ((outcome_none a₃).1 e₃)
    | some v₃ =>
      refine ⟨v₂, v₃, rfl, rfl, le_trans (add_le_add ?_ ?_) hc⟩
      · exact ((outcome_some a₂ v₂).1 e₂).2 _ _ g₁
      · exact ((outcome_some a₃ v₃).1 e₃).2 _ _ g₂

/-- C86. Raise limits of the variables, lower and upper ones, and let both problems have a result. If `μ` is optimal before and `μ'` after the change, then the least of the two is
optimal before, the greatest after the change. There are a least and a greatest optimal assignment before and after the change, and neither of them becomes smaller anywhere. -/
theorem C86_raise (wf : WellFormed P) (cv : ConvexCosts P) (hn : P.n + 1 < 2 ^ 64) (cap : Capacity imax P) (ins : Inside P lo hi) (ins' : Inside P lo' hi')
    (hl : ∀ i, 1 ≤ i → i ≤ P.n → lo i ≤ lo' i) (hh : ∀ i, 1 ≤ i → i ≤ P.n → hi i ≤ hi' i)
    (rep : Represents (P.restrict lo hi) Mus Omegas) (rep₁ : Represents (P.restrict lo' hi') Mus₁ Omegas₁) :
    ∃ r r₁, Returns (fun fuel => ProblemSolver.run imax fuel P.n Mus Omegas) r ∧
      Returns (fun fuel => ProblemSolver.run imax fuel P.n Mus₁ Omegas₁) r₁ ∧
      ∀ v v₁, r = some v → r₁ = some v₁ →
        (∀ μ μ', Attains (P.restrict lo hi) v μ → Attains (P.restrict lo' hi') v₁ μ' →
          Attains (P.restrict lo hi) v (fun i => min (μ i) (μ' i)) ∧ Attains (P.restrict lo' hi') v₁ (fun i => max (μ i) (μ' i))) ∧
        (∃ μ μ', (Attains (P.restrict lo hi) v μ ∧ ∀ ν, Attains (P.restrict lo hi) v ν → ∀ i, 1 ≤ i → i ≤ P.n → μ i ≤ ν i) ∧
          (Attains (P.restrict lo' hi') v₁ μ' ∧ ∀ ν, Attains (P.restrict lo' hi') v₁ ν → ∀ i, 1 ≤ i → i ≤ P.n → μ' i ≤ ν i) ∧
          ∀ i, 1 ≤ i → i ≤ P.n → μ i ≤ μ' i) ∧
        ∃ μ μ', (Attains (P.restrict lo hi) v μ ∧ ∀ ν, Attains (P.restrict lo hi) v ν → ∀ i, 1 ≤ i → i ≤ P.n → ν i ≤ μ i) ∧
          (Attains (P.restrict lo' hi') v₁ μ' ∧ ∀ ν, Attains (P.restrict lo' hi') v₁ ν → ∀ i, 1 ≤ i → i ≤ P.n → ν i ≤ μ' i) ∧
          ∀ i, 1 ≤ i → i ≤ P.n → μ i ≤ μ' i := by
  have key : ∀ {lo hi : Nat → Int} {Mus Omegas}, Inside P lo hi → Represents (P.restrict lo hi) Mus Omegas →
      ∃ r, Outcome (ProblemSolver.problemCosts (P.restrict lo hi)) r ∧ Returns (fun fuel => ProblemSolver.run imax fuel P.n Mus Omegas) r :=
    fun {lo hi Mus Omegas} i rep => ProblemSolver.run_capacity rep (wf_restrict wf i) (cv_shrinks (restrict_shrinks i) cv) hn (cap_shrinks (restrict_shrinks i) wf cap)
  obtain ⟨r, a, b⟩ := key ins rep
  obtain ⟨r₁, a₁, b₁⟩ := key ins' rep₁
  refine ⟨r, r₁, b, b₁, fun v v₁ e e₁ => ?_⟩
  have o := (outcome_some a v).1 e
  have o₁ := (outcome_some a₁ v₁).1 e₁
  have rg : ∀ {lo hi : Nat → Int} {v : K} {μ}, Attains (P.restrict lo hi) v μ → ∀ i, 1 ≤ i → i ≤ P.n → lo i ≤ μ i ∧ μ i ≤ hi i :=
    fun {lo hi v μ} h i h1 h2 => by obtain ⟨ω, f, -⟩ := h; exact f.1 i h1 h2
  have ne : ∀ {lo hi : Nat → Int} {v : K}, IsOptimum (P.restrict lo hi) v → ∃ μ, Attains (P.restrict lo hi) v μ :=
    fun {lo hi v} o => by obtain ⟨⟨μ, ω, f, e⟩, -⟩ := o; exact ⟨μ, ω, f, e⟩
  have both := fun (μ μ' : Nat → Int) h h' => attains_both cv.pairs hl hh o o₁ (μ := μ) (μ' := μ') h h'
  have self := fun (μ μ' : Nat → Int) h h' => attains_both cv.pairs (fun _ _ _ => le_rfl) (fun _ _ _ => le_rfl) o o (μ := μ) (μ' := μ') h h'
  have self₁ := fun (μ μ' : Nat → Int) h h' => attains_both cv.pairs (fun _ _ _ => le_rfl) (fun _ _ _ => le_rfl) o₁ o₁ (μ := μ) (μ' := μ') h h'
  refine ⟨both, ?_, ?_⟩
  · obtain ⟨μ, h1, h2⟩ := exists_least (n := P.n) (ne o) (fun μ h i h1 h2 => (rg h i h1 h2).1) fun μ μ' h h' => (self μ μ' h h').1
    obtain ⟨μ', h1', h2'⟩ := exists_least (n := P.n) (ne o₁) (fun μ h i h1 h2 => (rg h i h1 h2).1) fun μ μ' h h' => (self₁ μ μ' h h').1
    exact ⟨μ, μ', ⟨h1, h2⟩, ⟨h1', h2'⟩, fun i g1 g2 => (h2 _ (both _ _ h1 h1').1 i g1 g2).trans (min_le_right _ _)⟩
  · obtain ⟨μ, h1, h2⟩ := exists_greatest (n := P.n) (ne o) (fun μ h i h1 h2 => (rg h i h1 h2).2) fun μ μ' h h' => (self μ μ' h h').2
    obtain ⟨μ', h1', h2'⟩ := exists_greatest (n := P.n) (ne o₁) (fun μ h i h1 h2 => (rg h i h1 h2).2) fun μ μ' h h' => (self₁ μ μ' h h').2
    exact ⟨μ, μ', ⟨h1, h2⟩, ⟨h1', h2'⟩, fun i g1 g2 => (le_max_left _ _).trans (h2' _ (both _ _ h1 h1').2 i g1 g2)⟩

end

/-- The hypotheses of the first theorem are met by the example with the range of the first variable shortened from above, and with that of the second from below; both
problems have a solution. -/
example : Inside exP exP.lo (fun i => if i = 1 then 1 else 4) ∧ Inside exP (fun i => if i = 1 then -2 else 1) exP.hi ∧
    Solvable (exP.restrict exP.lo fun i => if i = 1 then 1 else 4) ∧ Solvable (exP.restrict (fun i => if i = 1 then -2 else 1) exP.hi) := by
  refine ⟨fun i h1 h2 => ?_, fun i h1 h2 => ?_, ⟨fun i => if i = 1 then 0 else 2, fun k => if k = 0 then -2 else 2, fun i h1 h2 => ?_, fun k hk => ?_⟩,
    ⟨fun i => if i = 1 then 0 else 2, fun k => if k = 0 then -2 else 2, fun i h1 h2 => ?_, fun k hk => ?_⟩⟩
  all_goals first
    | (have h3 : i ≤ 2 := h2
       interval_cases i <;> decide)
    | (have h3 : k < 2 := hk
       interval_cases k <;> simp [exP, Problem.restrict])

/-- These two sets of limits are also an example for the second theorem: the upper limit of the first variable and the lower limit of the second are raised. -/
example : (∀ i, 1 ≤ i → i ≤ exP.n → exP.lo i ≤ if i = 1 then -2 else 1) ∧ ∀ i, 1 ≤ i → i ≤ exP.n → (if i = 1 then 1 else 4) ≤ exP.hi i := by
  refine ⟨fun i h1 h2 => ?_, fun i h1 h2 => ?_⟩
  all_goals
    have h3 : i ≤ 2 := h2
    interval_cases i <;> decide

end AHO.Props
