import Verif.Model.OtherQ
import Verif.Proof.Loop
import Verif.Props.QFloor
import Verif.Props.Double
/-!
# With the rounding of the paper the program does not end
-/

namespace AHO.Props
open Spec Flow
set_option linter.unusedSectionVars false

/-- `μ₁` in `[0, 1]`, `μ₂ = 1`, no costs and no pairs -/
def swingP : Problem ℚ where
  n := 2
  lo i := if i = 1 then 0 else 1
  hi _ := 1
  F _ _ := 0
  pairs := []

/-- `Mus` for `swingP` -/
def swingMus : List (MuLimit ℚ) := [⟨0, 0, fun _ => .error .callback⟩, ⟨0, 1, fun _ => .ok 0⟩, ⟨1, 1, fun _ => .ok 0⟩]

/-- the limits of `swingP` -/
def swingLimits : List (OmegaLimit ℚ) := [⟨⟨0, 1, fun _ => .ok 0⟩, 1, 0⟩, ⟨⟨1, 1, fun _ => .ok 0⟩, 2, 0⟩]

/-- the state after the first phase -/
def swingFirst (fuel : Nat) : Res (Flow ℚ) := do
  let s ← Flow.mk' (2 ^ 31 - 1) fuel 2 1 1 swingLimits
  phaseWith (qPaper (2 ^ 31 - 1)) (2 ^ 31 - 1) fuel s

/-- the state at the beginning of the loop of `refine` in the second phase -/
def swingStart (fuel : Nat) : Res (Flow ℚ) := do
  let s ← swingFirst fuel
  pushAllAdmissibleEdgeWith (qPaper (2 ^ 31 - 1)) (2 ^ 31 - 1) s.initialization

/-- one round of the loop of `refine` -/
def swingStep (fuel : Nat) (s : Flow ℚ) : Res (Flow ℚ) := refineStepWith (qPaper (2 ^ 31 - 1)) (2 ^ 31 - 1) fuel s

/-- the states in the loop of `refine` -/
def swingStates (fuel : Nat) : Res (Flow ℚ × Flow ℚ × Flow ℚ × Flow ℚ × Flow ℚ) := do
  let s0 ← swingStart fuel
  let s1 ← swingStep fuel s0
  let s2 ← swingStep fuel s1
  let s3 ← swingStep fuel s2
  let s4 ← swingStep fuel s3
  .ok (s0, s1, s2, s3, s4)

/-- the third state returns after two rounds, and the queue is never empty -/
def swingCheck (fuel k : Nat) : Res Bool := do
  let (s0, s1, s2, s3, s4) ← swingStates fuel
  .ok (!s0.uq.empty && !s1.uq.empty && !s2.uq.empty && !s3.uq.empty && sameSize s2 s4 && sameAt 0 s2 s4 k)

theorem swingCheck_lt (g : Nat) : (List.range 4).map (swingCheck (g + 40)) = [.ok true, .ok true, .ok true, .ok true] := by kernel_eval

theorem swingCheck_ge (g k : Nat) : swingCheck (g + 40) (k + 4) = .ok true := by kernel_eval

theorem swing_core (g : Nat) : (swingStates (g + 40) >>= fun s => .ok s.2.2.2.2.core) = swingStates (g + 40) >>= fun s => .ok s.2.2.1.core := by
  kernel_eval

theorem swing_eps (g : Nat) : (Flow.mk' (2 ^ 31 - 1) (g + 40) 2 1 1 swingLimits >>= fun s => .ok s.epsilon) = .ok 8 := by kernel_eval

theorem swing_eps2 (g : Nat) : (swingFirst (g + 40) >>= fun s => .ok s.epsilon) = .ok 4 := by kernel_eval

theorem swing_run (g : Nat) : ProblemSolver.runPaper (2 ^ 31 - 1) (g + 40) 2 swingMus [] =
    Flow.mk' (2 ^ 31 - 1) (g + 40) 2 1 1 swingLimits >>= fun s => minCostWith (qPaper (2 ^ 31 - 1)) (2 ^ 31 - 1) (g + 40) s >>= fun r =>
      match r with | (c, _) => if 0 < c then .ok none else .ok (some c) := by kernel_eval

theorem swing_small : ∀ fuel < 40, ProblemSolver.runPaper (2 ^ 31 - 1) fuel 2 swingMus [] = .error .fuel := by decide +kernel

/-- a loop that stays in a set of states never ends -/
theorem whileLoop_stays {σ : Type} {cond : σ → Res Bool} {body : σ → Res σ} (A : σ → Prop)
    (h : ∀ s, A s → cond s = .ok true ∧ ∃ s', body s = .ok s' ∧ A s') (fuel : Nat) : ∀ s, A s → whileLoop cond body fuel s = .error .fuel := by
  induction fuel with
  | zero => intro s _; rfl
  | succ fuel ih =>
    intro s hs
    obtain ⟨h1, s', h2, h3⟩ := h s hs
    unfold whileLoop
    rw [h1, ok_bind, if_pos rfl, h2, ok_bind, ih s' h3]

theorem swing_check (g k : Nat) : swingCheck (g + 40) k = .ok true := by
  rcases Nat.lt_or_ge k 4 with hk | hk
  · have h := congrArg (fun l => l[k]?) (swingCheck_lt g)
    interval_cases k <;> simpa [List.range_succ] using h
  · obtain ⟨m, rfl⟩ := Nat.exists_eq_add_of_le' hk
    exact swingCheck_ge g m

theorem swing_minCost (g : Nat) : (Flow.mk' (2 ^ 31 - 1) (g + 40) 2 1 1 swingLimits >>= fun s =>
    minCostWith (qPaper (2 ^ 31 - 1)) (2 ^ 31 - 1) (g + 40) s) = .error .fuel := by
  obtain ⟨⟨s0, s1, s2, s3, s4⟩, hst, -⟩ := bind_eq_ok.1 (swing_check g 0)
  have hc : ∀ k, (!s0.uq.empty && !s1.uq.empty && !s2.uq.empty && !s3.uq.empty && sameSize s2 s4 && sameAt 0 s2 s4 k) = true := by
    intro k
    have := swing_check g k
    unfold swingCheck at this
    rw [hst, ok_bind] at this
    exact Except.ok.inj this
  have hcore := swing_core g
  rw [hst, ok_bind, ok_bind] at hcore
  have h0 := hc 0
  simp only [Bool.and_eq_true] at h0
  obtain ⟨⟨⟨⟨⟨q0, q1⟩, q2⟩, q3⟩, hz⟩, -⟩ := h0
  have h42 : s4 = s2 := by
    rw [← Flow.shift_zero s2]
    refine eq_shift hz (fun k => ?_) (Except.ok.inj hcore)
    have := hc k
    simp only [Bool.and_eq_true] at this
    exact this.2
  subst h42
  unfold swingStates at hst
  obtain ⟨t0, ht0, hst⟩ := bind_eq_ok.1 hst
  obtain ⟨t1, ht1, hst⟩ := bind_eq_ok.1 hst
  obtain ⟨t2, ht2, hst⟩ := bind_eq_ok.1 hst
  obtain ⟨t3, ht3, hst⟩ := bind_eq_ok.1 hst
  obtain ⟨t4, ht4, hst⟩ := bind_eq_ok.1 hst
  simp only [Except.ok.injEq, Prod.mk.injEq] at hst
  obtain ⟨rfl, rfl, rfl, rfl, h4⟩ := hst
  rw [h4] at ht4
  obtain ⟨f1, hf1, ht0⟩ := bind_eq_ok.1 ht0
  have he2 := swing_eps2 g
  rw [hf1, ok_bind, Except.ok.injEq] at he2
  obtain ⟨f, hf, hf1⟩ := bind_eq_ok.1 hf1
  have he := swing_eps g
  rw [hf, ok_bind, Except.ok.injEq] at he
  have hloop : whileLoop (fun s : Flow ℚ => .ok (!s.uq.empty)) (refineStepWith (qPaper (2 ^ 31 - 1)) (2 ^ 31 - 1) (g + 40)) (g + 40) t0 = .error .fuel := by
    refine whileLoop_stays (fun s => s = t0 ∨ s = t1 ∨ s = t2 ∨ s = t3) ?_ _ t0 (.inl rfl)
    rintro s (rfl | rfl | rfl | rfl)
    · exact ⟨by rw [q0], _, ht1, .inr (.inl rfl)⟩
    · exact ⟨by rw [q1], _, ht2, .inr (.inr (.inl rfl))⟩
    · exact ⟨by rw [q2], _, ht3, .inr (.inr (.inr rfl))⟩
    · exact ⟨by rw [q3], _, ht4, .inr (.inr (.inl rfl))⟩
  have hph : phaseWith (qPaper (2 ^ 31 - 1)) (2 ^ 31 - 1) (g + 40) f1 = .error .fuel := by
    unfold phaseWith refineWith
    simp only [ht0, ok_bind, hloop]
    rfl
  have hall : phasesWith (qPaper (2 ^ 31 - 1)) (2 ^ 31 - 1) (g + 40) f = .error .fuel := by
    unfold phasesWith
    conv_lhs => rw [show whileLoop (fun s : Flow ℚ => .ok (decide (s.epsilon ≥ 2))) (phaseWith (qPaper (2 ^ 31 - 1)) (2 ^ 31 - 1) (g + 40)) (g + 40) f =
      whileLoop (fun s : Flow ℚ => .ok (decide (s.epsilon ≥ 2))) (phaseWith (qPaper (2 ^ 31 - 1)) (2 ^ 31 - 1) (g + 40)) ((g + 38) + 1 + 1) f from rfl]
    unfold whileLoop
    rw [ok_bind, he, if_pos (by decide), hf1, ok_bind]
    unfold whileLoop
    rw [ok_bind, he2, if_pos (by decide), hph]
    rfl
  rw [hf, ok_bind]
  unfold minCostWith
  rw [hall]
  rfl

/-- C88. With the `⌊…⌋` of the paper in place of `⌈…⌉ - 1` the program does not end: `μ₁` in `[0, 1]`, `μ₂ = 1`, no costs, no pairs. All the demands on the input are
met, and the program itself returns the optimum `0`; with the other rounding a unit of flow goes back and forth between the first variable and the root of the
network, and the loop of `Flow::refine` never ends. So the rounding of the program is necessary. -/
theorem C88_paper_rounding_never_returns : Represents swingP swingMus [] ∧ WellFormed swingP ∧ ConvexCosts swingP ∧ Capacity (2 ^ 31 - 1) swingP ∧
    IsOptimum swingP 0 ∧ Returns (fun fuel => ProblemSolver.run (2 ^ 31 - 1) fuel swingP.n swingMus []) (some 0) ∧
    ∀ fuel, ProblemSolver.runPaper (2 ^ 31 - 1) fuel swingP.n swingMus [] = .error .fuel := by
  have hb : Nat.clog 2 3 = 2 := by decide +kernel
  refine ⟨⟨rfl, ?_, .nil⟩, ?_, ⟨?_, ?_⟩, ⟨?_, 1, ?_, ?_, ?_⟩, ⟨⟨fun _ => 1, fun _ => 0, ⟨?_, ?_⟩, ?_⟩, fun μ ω _ => ?_⟩,
    returns_of_eval 40 (by decide +kernel) fun _ _ h => ProblemSolver.run_le h _ _ _, fun fuel => ?_⟩
  · intro i h h1
    have h3 : i < 3 := h
    interval_cases i <;> exact ⟨rfl, rfl, fun x a b => rfl⟩
  · constructor
    · intro i _ _; simp only [swingP]; split <;> decide
    all_goals simp [swingP]
  · intro i _ _ x _ _; simp [swingP]
  · simp [swingP]
  · constructor <;> simp [swingP]
  · constructor
    · intro i _ _; simp only [swingP]; split <;> decide
    · intro i _ _; simp only [swingP]; decide
    all_goals simp [swingP]
  · constructor
    · intro i _ _; simp only [swingP]; split <;> decide
    · simp [swingP]
  · simp [swingP, bitCeil, hb]
  · intro i _ _
    simp only [swingP]
    split <;> decide
  · intro k hk; exact absurd hk (by simp [swingP])
  · simp only [cost, swingP, Finset.sum_const_zero, zero_add]
    exact Finset.sum_eq_zero fun k _ => Fin.elim0 k
  · simp only [cost, swingP, Finset.sum_const_zero, zero_add]
    exact (Finset.sum_eq_zero fun k _ => Fin.elim0 k).ge
  · change ProblemSolver.runPaper (2 ^ 31 - 1) fuel 2 swingMus [] = .error .fuel
    rcases Nat.lt_or_ge fuel 40 with h | h
    · exact swing_small fuel h
    · obtain ⟨g, rfl⟩ := Nat.exists_eq_add_of_le' h
      have := swing_minCost g
      rw [swing_run]
      cases hf : Flow.mk' (2 ^ 31 - 1) (g + 40) 2 (1 : ℚ) 1 swingLimits with
      | error e => rw [hf] at this; exact congrArg _ (Except.error.inj this)
      | ok s =>
        rw [hf, ok_bind] at this
        rw [ok_bind, this]
        rfl

section
variable {K : Type} [Field K] [LinearOrder K] [IsStrictOrderedRing K]
variable {imax : Int} {s : Flow K} {k : Nat} {e : OmegaLimit K} {p : Pair K} {a b : Int} {f : K}

/-- C88. The program of the theorem above is the program with the amount `paperQ` of C85 in place of `q`: with `q` it would be `Flow::min_cost`, and `qPaper` is that amount. -/
theorem C88_same_program (he : s.edges.rd k = .ok e) (hp : e.Is p) (hi : s.scaling.rd e.i = .ok a) (hj : s.scaling.rd e.j = .ok b)
    (hf : s.flows.rd k = .ok f) (hN : 2 * ((s.n : Int) + 1) ≤ imax) (hd : |a - b| ≤ imax - 2) :
    (∀ fuel, minCostWith (q imax) imax fuel s = minCost imax fuel s) ∧
      qPaper imax s k = .ok (paperQ s.M (2 * ((s.n : Int) + 1)) p (a - b) f) := by
  refine ⟨fun fuel => by rw [minCostWith_q], ?_⟩
  have hN0 : 0 < 2 * ((s.n : Int) + 1) := by omega
  have hNe : ((2 * (s.n + 1) : Nat) : Int) = 2 * ((s.n : Int) + 1) := by push_cast; ring
  obtain ⟨d1, d2⟩ := abs_le.1 hd
  unfold qPaper
  rw [he, ok_bind, hi, ok_bind, hj, ok_bind, ck_ok (by omega) (by omega), ok_bind]
  unfold toInt
  rw [hNe, ck_ok (by omega) hN, ok_bind, if_neg (by omega)]
  have r1 : -(imax - 2) ≤ (a - b) / (2 * ((s.n : Int) + 1)) := by
    rw [Int.le_ediv_iff_mul_le hN0]
    nlinarith
  have r2 : (a - b) / (2 * ((s.n : Int) + 1)) ≤ imax - 2 :=
    Int.ediv_le_of_le_mul hN0 (by nlinarith)
  rw [ck_ok (by omega) (by omega), ok_bind, ck_ok (by omega) (by omega), ok_bind, hf, ok_bind]
  unfold paperQ
  rw [hp.u, hp.l]
  split_ifs with c1 c2
  · rfl
  · rfl
  · rw [hp.fn _ (by omega) (by omega), ok_bind, hp.fn _ (by omega) (by omega), ok_bind]
    congr 1
    unfold dmax
    rw [max_def_lt]

end

/-- The hypotheses of the second theorem for the first arc of the example. -/
example : ∃ s, Flow.mk' (2 ^ 31 - 1) 40 2 (1 : ℚ) 1 swingLimits = .ok s ∧ ∃ e, s.edges.rd 0 = .ok e ∧ e.Is ⟨1, 0, 0, 1, fun _ => (0 : ℚ)⟩ ∧
    s.scaling.rd e.i = .ok 0 ∧ s.scaling.rd e.j = .ok 0 ∧ s.flows.rd 0 = .ok 0 ∧ 2 * ((s.n : Int) + 1) ≤ 2 ^ 31 - 1 ∧
    |(0 : Int) - 0| ≤ 2 ^ 31 - 1 - 2 :=
  ⟨_, rfl, ⟨⟨0, 1, fun _ => .ok 0⟩, 1, 0⟩, rfl, ⟨rfl, rfl, rfl, rfl, fun x _ _ => rfl⟩, rfl, rfl, rfl, by decide +kernel, by decide +kernel⟩

/-- At the beginning the program pushes nothing through the reverse of that arc; with the rounding of the paper one unit. -/
example : (do
      let s ← Flow.mk' (2 ^ 31 - 1) 40 2 (1 : ℚ) 1 swingLimits
      let x ← q (2 ^ 31 - 1) s 1
      let y ← qPaper (2 ^ 31 - 1) s 1
      .ok (x, y) : Res (ℚ × ℚ)) = .ok (0, 1) := by
  decide +kernel

end AHO.Props
