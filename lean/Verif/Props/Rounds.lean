import Verif.Proof.Rounds
import Verif.Props.Flow
import Verif.Props.Solver
/-!
# The number of rounds (C53, C54, C55)
-/

namespace AHO
open Spec Flow

namespace Props
section
variable {K : Type} [Field K] [LinearOrder K] [IsStrictOrderedRing K]
variable {imax : Int} {n : Nat} {M : K} {U R : Int} {limits : List (OmegaLimit K)} {arcs : List (Pair K)}

/-- C53. In a network with `n + 1` nodes and `m` arcs, `2m` edges, the loop of `refine` takes at most
`(3n+1)(6m+n+1) + 4m+n+1` rounds in every phase but the first, and also in the first if all ranges are within `U` of zero.
In general the first phase takes at most `(2nR+n+1)(6m+n+1) + 4m+n+1` rounds, where `R` bounds the distance of the ranges from zero.
(`J` is the number of rounds: the queue is empty after `J` rounds, and not before.) -/
theorem C53_rounds (I : NetInput imax n M U R limits arcs) :
    ∃ N, ∀ fuel, N ≤ fuel → ∃ s, Flow.mk' imax fuel n M U limits = .ok s ∧ ∀ k, k < phaseCount n U →
      ∃ s₁ s₂, iterN (Flow.phase imax fuel) k s = .ok s₁ ∧ pushAllAdmissibleEdge imax (initialization s₁) = .ok s₂ ∧
      ∃ J, (∀ j, j ≤ J → ∃ s', iterN (refineStep imax fuel) j s₂ = .ok s' ∧ (s'.uq.empty = true ↔ j = J)) ∧
        (1 ≤ k ∨ R ≤ U → J ≤ (3 * n + 1) * (6 * arcs.length + n + 1) + 4 * arcs.length + n + 1) ∧
        (k = 0 → J ≤ (2 * n * R.toNat + n + 1) * (6 * arcs.length + n + 1) + 4 * arcs.length + n + 1) := by
  refine ⟨minFuel n limits.length U R (2 * ((n : Int) + 1) * R), fun fuel hf => ?_⟩
  obtain ⟨s, B, e1, e2, -, e3⟩ := NetInput.rounds I hf
  refine ⟨s, e1, fun k hk => ?_⟩
  obtain ⟨s₁, s₂, a1, a2, -, -, J, j1, -, j2⟩ := e3 k hk
  have hlen : limits.length = arcs.length := I.rep.length_eq
  have key : ∀ B', relabels n B k ≤ B' → J ≤ B' * (6 * arcs.length + n + 1) + 4 * arcs.length + n + 1 := by
    intro B' hB
    have := j1.trans_le (roundFuel_mono (n := n) le_rfl hB)
    unfold roundFuel at this
    rw [hlen, show 3 * (2 * arcs.length) + (n + 1) = 6 * arcs.length + n + 1 by ring] at this
    omega
  refine ⟨s₁, s₂, a1, a2, J, fun j hj => ?_, fun hor => key _ ?_, fun hk0 => key _ ?_⟩
  · obtain ⟨s', h1, h2, -⟩ := j2.each j hj
    exact ⟨s', h1, h2⟩
  · unfold relabels
    split
    · rw [e2]
      refine firstB_near I.U_pos I.R_nonneg ?_
      rcases hor with h | h
      · omega
      · exact h
    · exact le_rfl
  · unfold relabels
    rw [if_pos hk0, e2]
    exact firstB_le I.U_pos I.R_nonneg

/-- The hypothesis is met by the example network; all ranges are within `U` of zero, there are four phases. -/
example : NetInput (2 ^ 31 - 1) 2 (10 : ℚ) 2 2 exLimits exArcs ∧ (2 : Int) ≤ 2 ∧ phaseCount 2 2 = 4 :=
  ⟨exArcs_input, le_rfl, by decide +kernel⟩

end

/-! ### C54: ranges far from zero -/

/-- one node with the range `[R, R+1]` and no cost -/
def slowP (R : Nat) : Problem ℚ where
  n := 1
  lo _ := R
  hi _ := R + 1
  F _ _ := 0
  pairs := []

/-- `Mus` for `slowP` -/
def slowMus (R : Nat) : List (MuLimit ℚ) := [⟨0, 0, fun _ => .error .callback⟩, ⟨R, R + 1, fun _ => .ok 0⟩]

theorem slow_rep (R : Nat) : Represents (slowP R) (slowMus R) [] := by
  refine ⟨rfl, ?_, .nil⟩
  intro i h h1
  have h3 : i < 2 := h
  interval_cases i
  exact ⟨rfl, rfl, fun x _ _ => rfl⟩

theorem slow_wf (R : Nat) : WellFormed (slowP R) := by
  constructor <;> simp [slowP]

theorem slow_cv (R : Nat) : ConvexCosts (slowP R) := by
  constructor
  · intro i _ _ x _ _; simp [slowP]
  · simp [slowP]

theorem slow_widths (R : Nat) : Widths (slowP R) (1 : Nat) := by
  constructor <;> simp [slowP]

theorem slow_capacity {R : Nat} {imax : Int} (h : ((12 * bitCeil (2 * (R + 1)) : Nat) : Int) ≤ imax) : Capacity imax (slowP R) := by
  refine ⟨⟨by simp [slowP], by simp [slowP]⟩, R + 1, ⟨?_, ?_, by simp [slowP], by simp [slowP]⟩, ⟨?_, by simp [slowP]⟩, ?_⟩
  · simp [slowP]; omega
  · simp [slowP]
  · simp [slowP]
  · exact h

/-- the network of `slowP` -/
def slowArcs (R : Nat) : List (Pair ℚ) := [⟨1, 0, R, R + 1, fun _ => 0⟩]

def slowLimits (R : Nat) : List (OmegaLimit ℚ) := [⟨⟨R, R + 1, fun _ => .ok 0⟩, 1, 0⟩]

theorem slow_arcIn (R : Nat) : ∀ p ∈ slowArcs R, ArcIn 1 (R + 1) 1 p := by
  intro p hp
  simp only [slowArcs, List.mem_singleton] at hp
  subst hp
  refine ⟨by simp, by simp, by simp, by simp, by dsimp only; omega, by simp, by simp, fun x _ _ => by simp⟩

theorem slow_epsilon₀ : epsilon₀ 1 1 = 4 := by
  have : Nat.clog 2 4 = 2 := by decide +kernel
  simp [epsilon₀, bitCeil, this]

theorem slow_epsExp : epsExp 1 1 = 2 := by decide +kernel

theorem slow_input {R : Nat} {imax : Int} (h : ((12 * bitCeil (2 * (R + 1)) : Nat) : Int) ≤ imax) :
    NetInput imax 1 (bigM (slowArcs R)) 1 (R + 1) (slowLimits R) (slowArcs R) := by
  have hb : 2 * (R + 1) ≤ bitCeil (2 * (R + 1)) := Nat.le_pow_clog (by norm_num) _
  refine ⟨.cons ⟨rfl, rfl, rfl, rfl, fun _ _ _ => rfl⟩ .nil, arcOK_of (slow_arcIn R), (bigM_pos (slow_arcIn R)).le, by omega, le_rfl, ?_⟩
  constructor
  · push_cast at h; omega
  · push_cast at h ⊢; omega
  · rw [slow_epsilon₀]; push_cast at h ⊢; omega
  · rw [slow_epsilon₀]; push_cast at h ⊢; omega

/-- the first phase takes at least `2R - 1` rounds -/
theorem slow_rounds {R : Nat} {imax : Int} (h : ((12 * bitCeil (2 * (R + 1)) : Nat) : Int) ≤ imax) {fuel : Nat}
    (hf : minFuel 1 1 1 (R + 1) (2 * (((1 : Nat) : Int) + 1) * (R + 1)) ≤ fuel) :
    ∃ s, Flow.mk' imax fuel 1 (bigM (slowArcs R)) 1 (slowLimits R) = .ok s ∧ s.epsilon = 4 ∧
      ∃ s₂, pushAllAdmissibleEdge imax (initialization s) = .ok s₂ ∧ ∃ J, 2 * R ≤ J + 1 ∧
        ∀ j, j < J → ∃ s', iterN (refineStep imax fuel) j s₂ = .ok s' ∧ s'.uq.empty = false := by
  have I := slow_input h
  obtain ⟨s, B, e1, -, e0, e3⟩ := NetInput.rounds I hf
  obtain ⟨s₁, s₂, a1, a2, a3, a4, J, -, -, j2⟩ := e3 0 (by rw [slow_epsExp]; omega)
  have hs : s₁ = s := by
    have : iterN (Flow.phase imax fuel) 0 s = .ok s := rfl
    rw [this] at a1; cases a1; rfl
  subst hs
  obtain ⟨sx, Bx, x1, x2, -, -, -⟩ := NetInput.phases I hf
  have hsx : sx = s₁ := by rw [e1] at x1; cases x1; rfl
  subst hsx
  refine ⟨sx, e1, by rw [x2, slow_epsilon₀]; rfl, s₂, a2, J, ?_, fun j hj => ?_⟩
  · obtain ⟨s', f, l1, l2, l3, l4, l5⟩ := j2.last
    obtain ⟨s'', m1, -, m2⟩ := j2.each J le_rfl
    have : s'' = s' := by rw [l1] at m1; cases m1; rfl
    subst this
    rw [slow_epsExp] at l4 m2
    have hopt := epsOptimal_of I (pot := s''.scaling.get) l2 l4 (k := 0) (by simp [slowArcs])
    have hzero : f 0 = 0 := by
      have := outflow_eq I l2 1
      rw [l3 1 le_rfl] at this
      have h1 : outflow (slowArcs R) (fun k => f (2 * k)) 1 = f 0 := by
        show (∑ k : Fin 1, _) = _
        rw [Fin.sum_univ_one]
        simp [slowArcs]
      rw [← h1, this]
    have hM := bigM_pos (slow_arcIn R)
    have h1 : 4 * (R : Int) ≤ s''.scaling.get 1 - s''.scaling.get 0 + 2 := by
      by_contra hc
      have h2 := hopt.2 ((R : Int) - 1) (by
        show s''.scaling.get 1 - s''.scaling.get 0 + (2 : Int) ^ 1 < _
        push_cast
        omega)
      have h3 : f 0 ≤ penal (bigM (slowArcs R)) (R : Int) (R + 1) (fun _ => (0 : ℚ)) ((R : Int) - 1 + 1) -
        penal (bigM (slowArcs R)) (R : Int) (R + 1) (fun _ => (0 : ℚ)) ((R : Int) - 1) := h2
      rw [hzero] at h3
      unfold penal at h3
      rw [if_neg (by omega), if_neg (by omega), if_pos (by omega)] at h3
      push_cast at h3
      linarith
    have h2 := m2 1 le_rfl
    have h3 := l5 0 (by omega)
    rw [a4 1 le_rfl, e0] at h2
    rw [a4 0 (by omega), e0] at h3
    norm_num at h2
    omega
  · obtain ⟨s', m1, m2, -⟩ := j2.each j hj.le
    refine ⟨s', m1, ?_⟩
    cases hq : s'.uq.empty with
    | false => rfl
    | true => have := m2.1 hq; omega

theorem slow_calc {R : Nat} {imax : Int} (h : ((12 * bitCeil (2 * (R + 1)) : Nat) : Int) ≤ imax) {fuel : Nat}
    (hf : Flow.bits (R + 1) < fuel) :
    ProblemSolver.calc' imax fuel (slowLimits R) = .ok (vcm (slowArcs R), bigM (slowArcs R), 1) := by
  have I := slow_input h
  obtain ⟨U, c1, c2, c3, c4⟩ := ProblemSolver.calcLoop_spec (imax := imax) (fuel := fuel) I.cap.range hf (slowLimits R) (slowArcs R) 0 1 0
    I.rep (slow_arcIn R)
  have h1 := c3 ⟨1, 0, R, R + 1, fun _ => 0⟩ (by simp [slowArcs])
  have hU : U = 1 := by
    rcases c4 with h | ⟨p, hp, h⟩
    · simp at h1; omega
    · simp only [slowArcs, List.mem_singleton] at hp
      subst hp
      simpa using h
  unfold ProblemSolver.calc'
  rw [c1, hU, zero_add]
  rfl

/-- C54. The number of rounds is not bounded in terms of the number of nodes and pairs and the length of the ranges: for
one node with the range `[R, R+1]`, no pairs, and a cost that is zero, the program needs at least `2R` rounds of one loop. (It then returns 0.) -/
theorem C54_rounds_depend_on_distance {R : Nat} {imax : Int} (h : ((12 * bitCeil (2 * (R + 1)) : Nat) : Int) ≤ imax) :
    Represents (slowP R) (slowMus R) [] ∧ WellFormed (slowP R) ∧ ConvexCosts (slowP R) ∧ Capacity imax (slowP R) ∧
    Widths (slowP R) (1 : Nat) ∧ (∀ fuel, fuel < 2 * R → ProblemSolver.run imax fuel 1 (slowMus R) [] = .error .fuel) ∧
    Returns (fun fuel => ProblemSolver.run imax fuel 1 (slowMus R) []) (some 0) := by
  have cap := slow_capacity h
  have hopt : IsOptimum (slowP R) 0 := by
    refine ⟨⟨fun _ => R, fun _ => 0, ⟨?_, ?_⟩, ?_⟩, ?_⟩
    · intro i _ _; simp [slowP]
    · intro k hk; simp [slowP] at hk
    · unfold cost
      exact (congrArg₂ (· + ·) (Finset.sum_eq_zero fun i _ => rfl) (Finset.sum_eq_zero fun k _ => k.elim0)).trans (add_zero 0)
    · intro μ ω _
      unfold cost
      exact (congrArg₂ (· + ·) (Finset.sum_eq_zero fun i _ => rfl) (Finset.sum_eq_zero fun k _ => k.elim0)).trans (add_zero 0) |>.ge
  obtain ⟨r, r1, r2⟩ := C01_solve_returns_optimum (slow_rep R) (slow_wf R) (slow_cv R) (by simp [slowP]) cap
  rw [(r2 0).2 hopt] at r1
  refine ⟨slow_rep R, slow_wf R, slow_cv R, cap, slow_widths R, fun fuel hfuel => ?_, r1⟩
  rcases r1.2 fuel with hr | hr
  swap
  · exact hr
  exfalso
  have hr : ProblemSolver.run imax fuel 1 (slowMus R) [] = .ok (some 0) := hr
  rw [ProblemSolver.run_front (by norm_num)] at hr
  have hfront : ProblemSolver.front imax fuel 1 (slowMus R) [] = .ok (some (slowLimits R)) := by
    unfold ProblemSolver.front ProblemSolver.mk'
    simp [slowMus, ProblemSolver.checkMus, listRd, ProblemSolver.processOmegas, sizeMax, ProblemSolver.mergeLimits,
      ProblemSolver.mergeLoop, ProblemSolver.musEdges, slowLimits, bind, Except.bind]
  rw [hfront, ok_bind] at hr
  dsimp only at hr
  unfold ProblemSolver.solveLimits at hr
  obtain ⟨F, hF⟩ : ∃ F, F = max fuel (minFuel 1 1 1 (R + 1) (2 * (((1 : Nat) : Int) + 1) * (R + 1))) := ⟨_, rfl⟩
  have hfF : fuel ≤ F := by omega
  have hbits : Flow.bits (R + 1) < F := by
    have : minFuel 1 1 1 (R + 1) (2 * (((1 : Nat) : Int) + 1) * (R + 1)) ≤ F := by omega
    unfold minFuel at this
    omega
  obtain ⟨s, e1, e2, s₂, e3, J, e4, e5⟩ := slow_rounds h (fuel := F) (by omega)
  cases hc : ProblemSolver.calc' imax fuel (slowLimits R) with
  | error e => rw [hc] at hr; cases hr
  | ok t =>
    have := Le.ok (ProblemSolver.calcLoop_le hfF (slowLimits R) (0, 1, 0)) hc
    have h2 := slow_calc h hbits
    unfold ProblemSolver.calc' at h2
    rw [this] at h2
    cases h2
    rw [hc, ok_bind] at hr
    dsimp only at hr
    cases hm : Flow.mk' imax fuel 1 (bigM (slowArcs R)) 1 (slowLimits R) with
    | error e => rw [hm] at hr; cases hr
    | ok s' =>
      have := Le.ok (Flow.mk'_le hfF _ _ _ _) hm
      rw [e1] at this
      cases this
      rw [hm, ok_bind] at hr
      unfold Flow.minCost Flow.phases at hr
      cases fuel with
      | zero => cases hr
      | succ fuel =>
        unfold whileLoop at hr
        rw [e2] at hr
        cases hp : Flow.phase imax (fuel + 1) s with
        | error e => simp [hp, bind, Except.bind] at hr
        | ok sp =>
          unfold Flow.phase at hp
          dsimp only at hp
          rw [e3, ok_bind] at hp
          unfold Flow.refine at hp
          cases hw : whileLoop (fun s : Flow ℚ => .ok (!s.uq.empty)) (refineStep imax (fuel + 1)) (fuel + 1) s₂ with
          | error e => rw [hw] at hp; cases hp
          | ok s₃ =>
            obtain ⟨J', j1, j2, j3⟩ := whileLoop_rounds hw
            have j4 := Le.ok (iterN_le (Flow.refineStep_le hfF) J' s₂) j2
            by_cases hJ : J' < J
            · obtain ⟨s₄, k1, k2⟩ := e5 J' hJ
              rw [j4] at k1
              cases k1
              rw [k2] at j3
              cases j3
            · omega

/-- The hypothesis is met for 32-bit `int` and `R = 2²⁶ - 1`; then more than 134 million rounds are needed for one variable with two
values. -/
example : ((12 * bitCeil (2 * (67108863 + 1)) : Nat) : Int) ≤ 2 ^ 31 - 1 ∧
    ProblemSolver.run (2 ^ 31 - 1) 134217725 1 (slowMus 67108863) [] = .error .fuel := by
  have h : ((12 * bitCeil (2 * (67108863 + 1)) : Nat) : Int) ≤ 2 ^ 31 - 1 := by
    have : Nat.clog 2 134217728 = 27 := by
      rw [show (134217728 : Nat) = 2 ^ 27 by norm_num]; exact Nat.clog_pow 2 27 (by norm_num)
    simp [bitCeil, this]
  exact ⟨h, (C54_rounds_depend_on_distance h).2.2.2.2.2.1 _ (by norm_num)⟩

/-- C54, as a negation: no function of the number of nodes, the number of pairs and the length of the ranges bounds the number of rounds. -/
theorem C54_no_bound : ¬ ∃ bound : Nat → Nat → Nat → Nat, ∀ (imax : Int) (P : Problem ℚ) (Mus : List (MuLimit ℚ)) (Omegas : List (OmegaLimit ℚ))
    (U : Nat), Represents P Mus Omegas → WellFormed P → ConvexCosts P → P.n + 1 < 2 ^ 64 → Capacity imax P → Widths P U →
    ∃ r, ProblemSolver.run imax (bound P.n P.pairs.length U) P.n Mus Omegas = .ok r := by
  rintro ⟨bound, hb⟩
  obtain ⟨h1, h2, h3, h4, h5, h6, -⟩ := C54_rounds_depend_on_distance (R := bound 1 0 1 + 1)
    (imax := ((12 * bitCeil (2 * (bound 1 0 1 + 1 + 1)) : Nat) : Int)) le_rfl
  obtain ⟨r, hr⟩ := hb _ _ _ _ 1 h1 h2 h3 (by simp [slowP]) h4 h5
  have hr' : ProblemSolver.run ((12 * bitCeil (2 * (bound 1 0 1 + 1 + 1)) : Nat) : Int) (bound 1 0 1) 1
    (slowMus (bound 1 0 1 + 1 : Nat)) [] = .ok r := hr
  rw [h6 _ (by omega)] at hr'
  cases hr'

/-! ### C55: ranges which contain zero -/

section
variable {K : Type} [Field K] [LinearOrder K] [IsStrictOrderedRing K]
variable {imax : Int} {P : Problem K} {Mus : List (MuLimit K)} {Omegas : List (OmegaLimit K)}

/-- C55. If zero is in the range of every variable and no upper limit of a pair is negative (as for C06), the number of
rounds of every loop is bounded by a polynomial in `n`, the number of pairs and the numbers of bits of `U` and of `int`: `U` itself
occurs only in the logarithm. -/
theorem C55_polynomial (rep : Represents P Mus Omegas) (wf : WellFormed P) (cv : ConvexCosts P)
    (hn : P.n + 1 < 2 ^ 64) (ri : Representable imax P) {U : Nat} (wd : Widths P U)
    (z : ∀ i, 1 ≤ i → i ≤ P.n → P.lo i ≤ 0 ∧ 0 ≤ P.hi i) (zu : ∀ p ∈ P.pairs, 0 ≤ p.u)
    (cap : ((6 * (P.n + 1) * bitCeil ((P.n + 1) * U) : Nat) : Int) ≤ imax) (fuel : Nat)
    (hf : (3 * P.n + 1) * (6 * (P.pairs.length + P.n) + P.n + 1) + 4 * (P.pairs.length + P.n) + P.n + 2 +
        Nat.clog 2 ((P.n + 1) * U) + Nat.log 2 (2 * imax).toNat + 6 ≤ fuel) :
    ∃ r, ProblemSolver.run imax fuel P.n Mus Omegas = .ok r ∧ ∀ v, r = some v ↔ IsOptimum P v := by
  have wi : Within P U := by
    refine ⟨fun i h1 h2 => ?_, fun i h1 h2 => ?_, fun p hp => ?_, fun p hp => ?_⟩
    · have := wd.nodes i h1 h2; have := z i h1 h2; omega
    · have := wd.nodes i h1 h2; have := z i h1 h2; omega
    · have := wd.pairs p hp
      have := z _ (wf.i_pos p hp) (wf.i_le p hp)
      have := z _ (wf.j_pos p hp) (wf.j_le p hp)
      omega
    · have := wd.pairs p hp; have := zu p hp; omega
  obtain ⟨r, h, -⟩ := ProblemSolver.run_near (W := U) rep wf cv wi wd ri hn (by omega) z zu
    (by push_cast at cap ⊢; simpa using cap) (fuel := fuel)
    (by
      unfold nearFuel Flow.bits Flow.roundFuel
      simp only [Int.toNat_natCast]
      rw [show 3 * (2 * (P.pairs.length + P.n)) + (P.n + 1) = 6 * (P.pairs.length + P.n) + P.n + 1 by ring]
      omega)
  obtain ⟨r', h1, h2⟩ := (C06_documented_capacity_suffices rep wf cv hn ri wd z zu cap).2
  rw [h1.value fuel h] at h2
  exact ⟨r, h, h2⟩

/-- two variables with the range `[-2²¹, 2²¹]` and the cost `x²`, a pair with `u = 7` -/
def wideP : Problem ℚ where
  n := 2
  lo _ := -2 ^ 21
  hi _ := 2 ^ 21
  F _ x := (x : ℚ) ^ 2
  pairs := [⟨1, 2, -5, 7, fun x => (x : ℚ) ^ 2⟩]

/-- The hypotheses are met with `U = 2²³` and 32-bit `int`; 228 rounds are enough. -/
example : Represents wideP [⟨0, 0, fun _ => .error .callback⟩, ⟨-2 ^ 21, 2 ^ 21, fun x => .ok ((x : ℚ) ^ 2)⟩,
      ⟨-2 ^ 21, 2 ^ 21, fun x => .ok ((x : ℚ) ^ 2)⟩] [⟨⟨-5, 7, fun x => .ok ((x : ℚ) ^ 2)⟩, 1, 2⟩] ∧
    WellFormed wideP ∧ ConvexCosts wideP ∧ Representable (2 ^ 31 - 1) wideP ∧ Widths wideP (2 ^ 23 : Nat) ∧
    (∀ i, 1 ≤ i → i ≤ wideP.n → wideP.lo i ≤ 0 ∧ 0 ≤ wideP.hi i) ∧ (∀ p ∈ wideP.pairs, 0 ≤ p.u) ∧
    ((6 * (wideP.n + 1) * bitCeil ((wideP.n + 1) * 2 ^ 23) : Nat) : Int) ≤ 2 ^ 31 - 1 ∧
    (3 * wideP.n + 1) * (6 * (wideP.pairs.length + wideP.n) + wideP.n + 1) + 4 * (wideP.pairs.length + wideP.n) + wideP.n + 2 +
      Nat.clog 2 ((wideP.n + 1) * 2 ^ 23) + Nat.log 2 (2 * (2 ^ 31 - 1) : Int).toNat + 6 ≤ 228 := by
  have hc : Nat.clog 2 (3 * 8388608) = 25 := by decide +kernel
  have hl : Nat.log 2 4294967294 = 31 := by decide +kernel
  refine ⟨⟨rfl, ?_, ?_⟩, ?_, ?_, ?_, ?_, by simp [wideP], by simp [wideP], ?_, ?_⟩
  · intro i h h1
    have h3 : i < 3 := h
    interval_cases i
    · exact ⟨rfl, rfl, fun x _ _ => rfl⟩
    · exact ⟨rfl, rfl, fun x _ _ => rfl⟩
  · exact .cons ⟨rfl, rfl, rfl, rfl, fun x _ _ => rfl⟩ .nil
  · constructor <;> simp [wideP]
  · constructor
    · intro i _ _ x _ _; simp only [wideP]; push_cast; nlinarith
    · intro p hp
      simp only [wideP, List.mem_singleton] at hp
      subst hp
      intro x _ _; push_cast; nlinarith
  · constructor <;> simp [wideP]
  · constructor <;> simp [wideP]
  · simp [wideP, bitCeil, hc]
  · simp [wideP, hc, hl]

end

end Props
end AHO
