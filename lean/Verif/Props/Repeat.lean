import Verif.Props.Flow
import Verif.Props.Example
import Verif.Proof.Transform
/-!
# Repeated calls
-/

namespace AHO.Props
open Spec Flow

section
variable {K : Type} [Field K] [LinearOrder K] [IsStrictOrderedRing K]
variable {P : Problem K} {Mus : List (MuLimit K)} {Omegas : List (OmegaLimit K)} {imax : Int}

/-- one object, `k` calls of `solve()` on it -/
def solveRepeatedly (imax : Int) (fuel : Nat) (n : Nat) (Mus : List (MuLimit K)) (Omegas : List (OmegaLimit K)) (k : Nat) :
    Res (List (Option K)) := do
  let s ← ProblemSolver.mk' imax fuel n Mus Omegas
  (List.replicate k ()).mapM fun _ => ProblemSolver.solve imax fuel s

/-- C27. However often `solve()` is called on an object, the result is the same each time, and it is the optimum. (`solve` is a
`const` function and has no access to anything else; in the model this is built in.) -/
theorem C27_solve_repeatable (rep : Represents P Mus Omegas) (wf : WellFormed P) (cv : ConvexCosts P)
    (hn : P.n + 1 < 2 ^ 64) (cap : Capacity imax P) :
    ∃ r, (∀ v, r = some v ↔ IsOptimum P v) ∧ ∀ k, ∃ N, ∀ fuel, N ≤ fuel →
      solveRepeatedly imax fuel P.n Mus Omegas k = .ok (List.replicate k r) := by
  obtain ⟨r, h1, ⟨N, h2⟩, -⟩ := ProblemSolver.run_capacity rep wf cv hn cap
  refine ⟨r, outcome_some h1, fun k => ⟨N, fun fuel hf => ?_⟩⟩
  have h3 : ProblemSolver.run imax fuel P.n Mus Omegas = .ok r := h2 fuel hf
  unfold ProblemSolver.run at h3
  unfold solveRepeatedly
  cases hm : ProblemSolver.mk' imax fuel P.n Mus Omegas with
  | error e => rw [hm] at h3; cases h3
  | ok s =>
    rw [hm, ok_bind] at h3
    rw [ok_bind, h3]
    induction k with
    | zero => rfl
    | succ k ih => rw [List.replicate_succ, List.mapM_cons, ok_bind, ih, ok_bind]; rfl

example : Represents exP exMus exOmegas ∧ WellFormed exP ∧ ConvexCosts exP ∧ exP.n + 1 < 2 ^ 64 ∧
    Capacity (2 ^ 31 - 1) exP := ⟨ex_rep, ex_wf, ex_cv, ex_n, ex_capacity⟩

end

/-- `Flow flow(n, M, U, limits);` and two calls of `flow.min_cost()` -/
def minCostTwice (imax : Int) (n : Nat) (M : ℚ) (U : Int) (limits : List (OmegaLimit ℚ)) (fuel : Nat) : Res (ℚ × ℚ) := do
  let s ← Flow.mk' imax fuel n M U limits
  let (a, s) ← Flow.minCost imax fuel s
  let (b, _) ← Flow.minCost imax fuel s
  .ok (a, b)

/-- a triangle of arcs with the costs `x`, `-x` and `0` on `[0, 1]` -/
def triArcs : List (Pair ℚ) := [⟨1, 0, 0, 1, fun x => x⟩, ⟨2, 0, 0, 1, fun x => -x⟩, ⟨1, 2, 0, 1, fun _ => 0⟩]

def triLimits : List (OmegaLimit ℚ) := triArcs.map fun p => { l := p.l, u := p.u, fn := fun x => .ok (p.B x), i := p.i, j := p.j }

/-- C27. A `Flow` is for a single use: here the first call of `min_cost()` returns the minimum 0, the second -1. -/
theorem C27_min_cost_single_use : NetInput (2 ^ 31 - 1) 2 (10 : ℚ) 1 1 triLimits triArcs ∧
    IsLeast (Set.range (penalised 10 triArcs)) 0 ∧ Returns (minCostTwice (2 ^ 31 - 1) 2 10 1 triLimits) (0, -1) := by
  have hI : NetInput (2 ^ 31 - 1) 2 (10 : ℚ) 1 1 triLimits triArcs := by
    have he : epsilon₀ 2 1 = 8 := by
      have : Nat.clog 2 6 = 3 := by decide +kernel
      simp [epsilon₀, bitCeil, this]
    refine ⟨?_, ?_, by norm_num, by decide, by decide, ?_⟩
    · unfold triLimits
      rw [List.forall₂_map_left_iff, List.forall₂_same]
      intro p _
      exact ⟨rfl, rfl, rfl, rfl, fun _ _ _ => rfl⟩
    · intro p hp
      simp only [triArcs, List.mem_cons, List.not_mem_nil, or_false] at hp
      rcases hp with rfl | rfl | rfl
      · exact ⟨by decide, by decide, by decide, by decide, by decide, by decide, fun x _ _ => by push_cast; linarith, fun x _ _ => by
          push_cast; rw [abs_le]; constructor <;> linarith⟩
      · exact ⟨by decide, by decide, by decide, by decide, by decide, by decide, fun x _ _ => by push_cast; linarith, fun x _ _ => by
          push_cast; rw [abs_le]; constructor <;> linarith⟩
      · exact ⟨by decide, by decide, by decide, by decide, by decide, by decide, fun x _ _ => by push_cast; linarith, fun x _ _ => by
          push_cast; rw [abs_le]; constructor <;> linarith⟩
    · constructor <;> simp [he]
  refine ⟨hI, ?_, returns_of_eval 40 (by decide +kernel) fun a b hab =>
    (Flow.mk'_le hab _ _ _ _).bind fun s => (Flow.minCost_le hab s).bind fun p => (Flow.minCost_le hab p.2).bind fun _ => .refl _⟩
  obtain ⟨v, h1, h2⟩ := C21_min_cost hI
  have : flowMinCost (2 ^ 31 - 1) 2 10 1 triLimits 40 = .ok 0 := by decide +kernel
  rwa [h1.value 40 this] at h2

end AHO.Props
