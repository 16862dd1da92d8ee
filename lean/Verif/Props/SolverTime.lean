import Verif.Proof.RunTime
import Verif.Props.Solver
/-!
# Running time of the whole solver (C63)
-/

namespace AHO
open Spec

namespace Props
variable {K : Type} [Field K] [LinearOrder K] [IsStrictOrderedRing K]
variable {imax : Int} {P : Problem K} {Mus : List (MuLimit K)} {Omegas : List (OmegaLimit K)}

/-- C63: the counters of `runC` do not change what is computed. -/
theorem C63_counters_only {D : Type} [Zero D] [One D] [Add D] [Sub D] [Neg D] [Mul D] [Div D] [IntCast D]
    [LT D] [LE D] [DecidableLT D] [DecidableLE D] [BEq D] (imax : Int) (fuel n : Nat) (Mus : List (MuLimit D)) (Omegas : List (OmegaLimit D)) :
    (ProblemSolver.runC imax fuel n Mus Omegas).map (·.2) = ProblemSolver.run imax fuel n Mus Omegas :=
  ProblemSolver.runC_er imax fuel n Mus Omegas

/-- Bounds for the counters `c` of a run with `n` nodes and `p` pairs, where a potential is raised at most `b` times in `k` phases, the ranges given by
the caller have fewer than `2 ^ Li` steps and the ranges of the network fewer than `2 ^ L`. With `m = p + n`:
* the rounds of the loop of `refine`,
* the calls of `rot` and `push_down_from_root` and the iterations of the loop of `access`,
* the iterations of the loops of `find_root` and `get_min_wtrbnr`,
* the iterations of all the other loops,
* the evaluations of the function of a limit. -/
structure RunBound (n p b k Li L : Nat) (c : Cost) : Prop where
  rounds : c.rounds ≤ b * (6 * (p + n) + n + 1) + k * (4 * (p + n) + n + 1)
  steps : (c.steps : ℝ) ≤ 9 * (42 * Real.logb 2 (n + 2) + 11) * c.rounds
  walk : c.walk ≤ 3 * (n + 1) * c.rounds
  iters : c.iters ≤ c.rounds + 4 * (p + n) * b + k * (4 * (p + n) + 3 * n + 4) + 3 * n + 1 + p * (3 + Li) + (p + n) * (6 + 3 * L)
  evals : c.evals ≤ 6 * c.rounds + 2 * (4 * (p + n) * b + k * (4 * (p + n) + 3 * n + 3)) + 2 * p * Li + (p + n) * (7 + 6 * L)

theorem RunBound.of {n p b k Li L : Nat} {c : Cost}
    (h : Heavy c n (p + n) b k (ProblemSolver.restIters n p k Li L) (ProblemSolver.restEvals n p Li L)) : RunBound n p b k Li L c := by
  refine ⟨h.rounds, h.steps, h.walk, h.iters.trans (le_of_eq ?_), h.evals.trans (le_of_eq ?_)⟩
  · unfold ProblemSolver.restIters; ring
  · unfold ProblemSolver.restEvals; ring

theorem lt_two_pow_log (x : Int) : x < 2 ^ (Nat.log 2 x.toNat + 1) := by
  have h := Nat.lt_pow_succ_log_self (b := 2) (by norm_num) x.toNat
  have h2 : ((x.toNat : Nat) : Int) < ((2 ^ (Nat.log 2 x.toNat + 1) : Nat) : Int) := by exact_mod_cast h
  push_cast at h2
  omega

/-- C63. `ProblemSolver(n, Mus, Omegas).solve()` as a whole, for ranges of length at most `W` and at distance at most `W` from zero: a potential is raised
at most `b = 2 n W + n + 1 + k (3n + 1)` times in `k = ⌈log₂ (2 (n + 1) W)⌉` phases. -/
theorem C63_running_time (rep : Represents P Mus Omegas) (wf : WellFormed P) (cv : ConvexCosts P)
    (hn : P.n + 1 < 2 ^ 64) (ri : Representable imax P) {W : Nat} (wi : Within P W) (wd : Widths P W)
    (cap : ((6 * (P.n + 1) * bitCeil ((P.n + 1) * W) : Nat) : Int) ≤ imax) :
    ∃ N, ∀ fuel, N ≤ fuel → ∃ c r, ProblemSolver.runC imax fuel P.n Mus Omegas = .ok (c, r) ∧
      RunBound P.n P.pairs.length (2 * P.n * W + P.n + 1 + phaseCount P.n W * (3 * P.n + 1)) (phaseCount P.n W)
        (Nat.log 2 imax.toNat + 1) (Nat.log 2 W + 1) c := by
  refine ⟨solveFuel P.n (P.pairs.length + P.n) imax W, fun fuel hf => ?_⟩
  obtain ⟨c, r, h1, h2⟩ := ProblemSolver.run_time (W := W) rep wf cv wi wd ri hn (by omega) (lt_two_pow_log imax) (lt_two_pow_log W)
    (by push_cast at cap ⊢; simpa using cap) hf
  exact ⟨c, r, h1, .of h2⟩

/-- C63, when zero lies in every node range and no pair has a negative upper end: then a potential is raised at most `k (3n + 1)` times, and the running
time depends on the lengths of the ranges through their logarithm only. -/
theorem C63_running_time_near (rep : Represents P Mus Omegas) (wf : WellFormed P) (cv : ConvexCosts P)
    (hn : P.n + 1 < 2 ^ 64) (ri : Representable imax P) {W : Nat} (wd : Widths P W)
    (z : ∀ i, 1 ≤ i → i ≤ P.n → P.lo i ≤ 0 ∧ 0 ≤ P.hi i) (zu : ∀ p ∈ P.pairs, 0 ≤ p.u)
    (cap : ((6 * (P.n + 1) * bitCeil ((P.n + 1) * W) : Nat) : Int) ≤ imax) :
    ∃ N, ∀ fuel, N ≤ fuel → ∃ c r, ProblemSolver.runC imax fuel P.n Mus Omegas = .ok (c, r) ∧
      RunBound P.n P.pairs.length (phaseCount P.n W * (3 * P.n + 1)) (phaseCount P.n W)
        (Nat.log 2 imax.toNat + 1) (Nat.log 2 W + 1) c := by
  have wi : Within P W := by
    refine ⟨fun i h1 h2 => ?_, fun i h1 h2 => ?_, fun p hp => ?_, fun p hp => ?_⟩
    · have := wd.nodes i h1 h2; have := z i h1 h2; omega
    · have := wd.nodes i h1 h2; have := z i h1 h2; omega
    · have := wd.pairs p hp
      have := z _ (wf.i_pos p hp) (wf.i_le p hp)
      have := z _ (wf.j_pos p hp) (wf.j_le p hp)
      omega
    · have := wd.pairs p hp; have := zu p hp; omega
  refine ⟨nearFuel P.n (P.pairs.length + P.n) imax W, fun fuel hf => ?_⟩
  obtain ⟨c, r, h1, h2⟩ := ProblemSolver.run_time_near (W := W) rep wf cv wi wd ri hn (by omega) (lt_two_pow_log imax) (lt_two_pow_log W) z zu
    (by push_cast at cap ⊢; simpa using cap) hf
  exact ⟨c, r, h1, .of h2⟩

/-- The example of `Verif.Props.Example`: six phases, in which a potential is raised at most 77 times. -/
example : Represents exP exMus exOmegas ∧ WellFormed exP ∧ ConvexCosts exP ∧ Representable (2 ^ 31 - 1) exP ∧ Within exP (8 : Nat) ∧
    Widths exP (8 : Nat) ∧ ((6 * (exP.n + 1) * bitCeil ((exP.n + 1) * 8) : Nat) : Int) ≤ 2 ^ 31 - 1 ∧
    phaseCount exP.n (8 : Nat) = 6 ∧ 2 * exP.n * 8 + exP.n + 1 + phaseCount exP.n (8 : Nat) * (3 * exP.n + 1) = 77 := by
  refine ⟨ex_rep, ex_wf, ex_cv, ex_representable, ?_, ex_widths, by rw [ex_bitCeil]; simp [exP], by decide +kernel, by decide +kernel⟩
  have := ex_within
  refine ⟨fun i h1 h2 => ?_, fun i h1 h2 => ?_, fun p hp => ?_, fun p hp => ?_⟩
  · have := this.lo i h1 h2; push_cast; omega
  · have := this.hi i h1 h2; push_cast; omega
  · have := this.u p hp; push_cast; omega
  · have := this.diff p hp; push_cast; omega

/-- two nodes and a pair, all ranges containing zero -/
def nearP : Problem ℚ where
  n := 2
  lo i := if i = 1 then -1 else 0
  hi i := if i = 1 then 1 else 2
  F i x := ((x : ℚ) - i) ^ 2
  pairs := [⟨1, 2, -1, 3, fun x => (x : ℚ) ^ 2⟩]

/-- six phases at most, in which a potential is raised at most 42 times -/
example : Represents nearP [⟨0, 0, fun _ => .ok 0⟩, ⟨-1, 1, fun x => .ok (((x : ℚ) - 1) ^ 2)⟩, ⟨0, 2, fun x => .ok (((x : ℚ) - 2) ^ 2)⟩]
      [⟨⟨-1, 3, fun x => .ok ((x : ℚ) ^ 2)⟩, 1, 2⟩] ∧ WellFormed nearP ∧ ConvexCosts nearP ∧ Representable (2 ^ 31 - 1) nearP ∧
    Widths nearP (6 : Nat) ∧ (∀ i, 1 ≤ i → i ≤ nearP.n → nearP.lo i ≤ 0 ∧ 0 ≤ nearP.hi i) ∧ (∀ p ∈ nearP.pairs, 0 ≤ p.u) ∧
    ((6 * (nearP.n + 1) * bitCeil ((nearP.n + 1) * 6) : Nat) : Int) ≤ 2 ^ 31 - 1 ∧
    phaseCount nearP.n (6 : Nat) = 6 ∧ phaseCount nearP.n (6 : Nat) * (3 * nearP.n + 1) = 42 := by
  refine ⟨⟨rfl, ?_, .cons ⟨rfl, rfl, rfl, rfl, fun _ _ _ => rfl⟩ .nil⟩, ?_, ?_, ?_, ?_, ?_, ?_, ?_, by decide +kernel, by decide +kernel⟩
  · intro i hi h1
    have : i = 1 ∨ i = 2 := by simp at hi; omega
    rcases this with rfl | rfl
    · exact ⟨rfl, rfl, fun x _ _ => by simp [nearP]⟩
    · exact ⟨rfl, rfl, fun x _ _ => by simp [nearP]⟩
  · constructor <;> simp [nearP]
    intro i _ _; split <;> decide
  · constructor
    · intro i _ _ x _ _; simp only [nearP]; push_cast; nlinarith
    · simp only [nearP, List.mem_singleton, forall_eq]
      intro x _ _; push_cast; nlinarith
  · constructor <;> simp [nearP]
  · constructor <;> simp [nearP]
    intro i _ _; split <;> decide
  · intro i _ _; simp only [nearP]; split <;> decide
  · simp [nearP]
  · decide +kernel

/-- The counters of the run on the example of `Verif.Props.Example`: rounds of `refine`, steps and walks in the link-cut tree,
iterations of the other loops, evaluations of costs. `C63_running_time` gives upper bounds only; this theorem shows that the counters count.
The same numbers are counted by a transcription of the C++ into Python (`crosscheck/port.py`). -/
theorem C63_example_counters : (ProblemSolver.runC (2 ^ 31 - 1) 300 exP.n exMus exOmegas).map (fun x => (x.1.rounds, x.1.steps, x.1.walk, x.1.iters, x.1.evals)) =
    .ok (28, 219, 36, 212, 219) := by decide +kernel

end Props
end AHO
