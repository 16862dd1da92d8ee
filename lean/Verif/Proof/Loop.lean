import Verif.Proof.Drift
/-!
# A check that the first phase never ends

`loopCheck` runs the constructor of `Flow`, the start of the first phase and some rounds of the loop of `Flow::refine`, and then looks
whether some more rounds give the same state with raised potentials. If so, the program overflows, whatever the size of `int`.
-/

namespace AHO
set_option linter.unusedSectionVars false

variable {D : Type} [Zero D] [One D] [IntCast D] [Add D] [Sub D] [Neg D] [Mul D] [Div D]
  [LT D] [LE D] [DecidableLT D] [DecidableLE D] [BEq D]

/-- `a` rounds, and `b` more. The result of the last `b` is compared with the state before at the positions `k`. -/
def loopCheck [DecidableEq D] (imax : Int) (F n : Nat) (limits : List (OmegaLimit D)) (a b : Nat) (c : Int) (k : Nat) : Res Bool := do
  let r ← ProblemSolver.calc' imax F limits
  let s ← Flow.mk' imax F n r.2.1 r.2.2 limits
  let s1 ← Flow.pushAllAdmissibleEdge imax s.initialization
  let s2 ← Flow.rounds imax F a s1
  let s3 ← Flow.rounds imax F b s2
  .ok (decide (2 ≤ s.epsilon) && Flow.sameSize s2 s3 && Flow.sameAt c s2 s3 k && decide (0 < s2.scaling.size) &&
    decide (0 ≤ s2.scaling.get 0) && (List.range s2.scaling.size).all fun j => decide (s2.scaling.get j ≤ imax))

theorem loopCheck_overflow [DecidableEq D] {imax₀ imax : Int} {F n : Nat} {limits : List (OmegaLimit D)} {a b : Nat} {c : Int}
    (hc : 0 < c) (check : ∀ k, loopCheck imax₀ F n limits a b c k = .ok true) (hi : imax₀ ≤ imax) :
    ∃ N, ∀ fuel, N ≤ fuel → ∃ vcm M U, ProblemSolver.calc' imax fuel limits = .ok (vcm, M, U) ∧
      (Flow.mk' imax fuel n M U limits >>= Flow.minCost imax fuel) = .error .overflow := by
  obtain ⟨r, ha, h⟩ := bind_eq_ok.1 (check 0)
  obtain ⟨s, hs, h⟩ := bind_eq_ok.1 h
  obtain ⟨s1, hs1, h⟩ := bind_eq_ok.1 h
  obtain ⟨s2, hs2, h⟩ := bind_eq_ok.1 h
  obtain ⟨s3, hs3, h⟩ := bind_eq_ok.1 h
  have hk : ∀ k, Flow.sameAt c s2 s3 k = true := by
    intro k
    have := check k
    unfold loopCheck at this
    simp only [ha, hs, hs1, hs2, hs3, ok_bind, Except.ok.injEq, Bool.and_eq_true] at this
    exact this.1.1.1.2
  simp only [Except.ok.injEq, Bool.and_eq_true, decide_eq_true_eq, List.all_eq_true, List.mem_range] at h
  obtain ⟨⟨⟨⟨⟨heps, hz⟩, -⟩, h3⟩, h0⟩, bd⟩ := h
  have r1 := Flow.rounds_sound hs2
  have r2 := Flow.rounds_sound hs3
  rw [Flow.eq_shift hz hk r2.core] at r2
  refine ⟨F + 2 + a + b * (imax.toNat + 1), fun fuel hf => ?_⟩
  have hF : F ≤ fuel := by omega
  obtain ⟨vcm, M, U⟩ := r
  refine ⟨vcm, M, U, ?_, ?_⟩
  · have h1 := ProblemSolver.calcLoop_wid hi F (List.forall₂_same.2 fun e (_ : e ∈ limits) => WE.refl e) (0, 1, 0)
    have h2 : ProblemSolver.calcLoop imax₀ F limits (0, 1, 0) = .ok (vcm, M, U) := ha
    rw [h2] at h1
    generalize hy : ProblemSolver.calcLoop imax F limits (0, 1, 0) = y at h1
    cases h1 with
    | ok e =>
      subst e
      rcases ProblemSolver.calcLoop_le (imax := imax) hF limits (0, 1, 0) with h | h
      · rw [hy] at h; cases h
      · exact h.symm.trans hy
  · have h1 := Flow.mk'_wid hi F n M U (List.forall₂_same.2 fun e (_ : e ∈ limits) => WE.refl e)
    dsimp only at hs
    rw [hs] at h1
    generalize hy : Flow.mk' imax F n M U limits = y at h1
    cases h1 with
    | @ok _ s' hw =>
      have e1 : Flow.mk' imax fuel n M U limits = .ok s' := by
        rcases Flow.mk'_le (imax := imax) hF n M U limits with h | h
        · rw [hy] at h; cases h
        · exact h.symm.trans hy
      have hwi : Flow.WF s.initialization s'.initialization :=
        hw.elim (P := fun s' => Flow.WF s.initialization s'.initialization) fun E hE => ⟨rfl, hE⟩
      have h2 := Flow.pushAll_wid hi hwi
      rw [hs1] at h2
      generalize hy2 : Flow.pushAllAdmissibleEdge imax s'.initialization = y2 at h2
      cases h2 with
      | @ok _ s1' hw1 =>
        obtain ⟨s2', q1, hw2⟩ := r1.wid hi hw1
        have q2 := (r2.wid_shift hi hw2).mono hF
        have q1 := q1.mono hF
        have hsc : s2'.scaling = s2.scaling := by rw [hw2.eq]
        have hb : Flow.Bounded imax (s2'.shift 0) := by
          rw [Flow.shift_zero]
          intro k hk
          rw [hsc] at hk ⊢
          have := bd k hk
          omega
        have hm : imax < 0 + (imax.toNat + 1 : Nat) * c := by
          have h1 : ((imax.toNat + 1 : Nat) : Int) * 1 ≤ (imax.toNat + 1 : Nat) * c := Int.mul_le_mul_of_nonneg_left (by omega) (by omega)
          omega
        have hloop := q2.overflow hc (by rw [hsc]; exact h3) (by rw [hsc]; exact h0) (imax.toNat + 1) 0 hm hb
        have hover : Flow.refineLoop imax fuel fuel s1' = .error .overflow := by
          obtain ⟨g, hg⟩ : ∃ g, fuel = g + b * (imax.toNat + 1) + a := ⟨fuel - (b * (imax.toNat + 1) + a), by omega⟩
          have e : ∀ f, f = g + b * (imax.toNat + 1) + a → Flow.refineLoop imax fuel f s1' = .error .overflow := by
            rintro f rfl
            rw [q1.loop, ← Flow.shift_zero s2', hloop]
          exact e fuel hg
        have hphase : Flow.phase imax fuel s' = .error .overflow := by
          unfold Flow.phase
          dsimp only
          rw [hy2, ok_bind]
          unfold Flow.refine
          unfold Flow.refineLoop at hover
          rw [hover]
          rfl
        rw [e1, ok_bind]
        unfold Flow.minCost Flow.phases
        obtain ⟨g, hg⟩ : ∃ g, fuel = g + 1 := ⟨fuel - 1, by omega⟩
        have hloop' : whileLoop (fun s : Flow D => .ok (decide (s.epsilon ≥ 2))) (Flow.phase imax fuel) fuel s' =
            .error .overflow := by
          conv_lhs => rw [hg]
          unfold whileLoop
          rw [← hg, hphase]
          have : s'.epsilon = s.epsilon := by rw [hw.eq]
          simp [this, heps]
        rw [hloop']
        rfl

/-- the same for the whole program -/
theorem loopCheck_run [DecidableEq D] {imax₀ : Int} {F n : Nat} {limits : List (OmegaLimit D)} {a b : Nat} {c : Int}
    (hc : 0 < c) (check : ∀ k, loopCheck imax₀ F n limits a b c k = .ok true) {Mus : List (MuLimit D)}
    (hn : Mus.length = (n + 1) % 2 ^ 64) (hs : n ≠ sizeMax) (hM : ProblemSolver.checkMus Mus 1 n = .ok true)
    (hL : ∀ imax, ProblemSolver.mergeLimits imax ⟨n, Mus, []⟩ = .ok (some limits)) (imax : Int) :
    ∃ N, ∀ fuel, N ≤ fuel → ProblemSolver.run imax fuel n Mus [] = .error .overflow := by
  obtain ⟨N, hN⟩ := loopCheck_overflow hc check (imax := max imax imax₀) (le_max_right _ _)
  refine ⟨N, fun fuel hf => ?_⟩
  obtain ⟨vcm, M, U, h1, h2⟩ := hN fuel hf
  have hrun : ProblemSolver.run (max imax imax₀) fuel n Mus [] = .error .overflow := by
    have e1 : ProblemSolver.mk' (max imax imax₀) fuel n Mus [] = .ok ⟨n, Mus, []⟩ := by
      unfold ProblemSolver.mk'
      rw [if_neg (not_not.2 hn), hM]
      rfl
    unfold ProblemSolver.run
    rw [e1, ok_bind]
    unfold ProblemSolver.solve
    rw [if_neg hs, hL, ok_bind]
    dsimp only
    rw [h1, ok_bind]
    cases hm : Flow.mk' (max imax imax₀) fuel n M U limits with
    | error e =>
      rw [hm] at h2
      exact congrArg _ (Except.error.inj h2)
    | ok s =>
      rw [hm, ok_bind] at h2
      rw [ok_bind, h2]
      rfl
  have hw := ProblemSolver.run_wid (le_max_left imax imax₀) fuel n Mus []
  rw [hrun] at hw
  generalize ProblemSolver.run imax fuel n Mus [] = x at hw
  cases hw <;> rfl

end AHO
