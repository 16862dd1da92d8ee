import Verif.Proof.DualGap
import Verif.Props.Flow
/-!
# The dual problem
-/

namespace AHO.Props
open Spec Flow
set_option linter.unusedSectionVars false

section
variable {K : Type} [Field K] [LinearOrder K] [IsStrictOrderedRing K]
variable {imax : Int} {n : Nat} {M : K} {U R : Int} {limits : List (OmegaLimit K)} {arcs : List (Pair K)}

/-- the state after each phase -/
theorem NetInput.afterPhase (I : NetInput imax n M U R limits arcs) {fuel : Nat}
    (hf : minFuel n limits.length U R (2 * ((n : Int) + 1) * R) ≤ fuel) :
    ∃ s, Flow.mk' imax fuel n M U limits = .ok s ∧ ∀ k, 1 ≤ k → k ≤ phaseCount n U →
      ∃ s', iterN (Flow.phase imax fuel) k s = .ok s' ∧ s'.epsilon = 2 ^ (phaseCount n U - k) ∧
        DualFeasible n M arcs (fun a => s'.flows.get (2 * a)) ∧
        ∀ (a : Nat) (ha : a < arcs.length), EpsOptimal M (2 * ((n : Int) + 1)) s'.epsilon arcs[a]
          (s'.scaling.get arcs[a].i - s'.scaling.get arcs[a].j) (s'.flows.get (2 * a)) := by
  obtain ⟨s, B, e1, e2, e3, e4, e5⟩ := NetInput.phases I hf
  refine ⟨s, e1, fun k hk1 hk => ?_⟩
  obtain ⟨s', a1, ⟨C, hC, P⟩, a3, a4⟩ := e5 k hk
  have hE : (inputNet n M limits arcs).E = 2 * arcs.length := by show 2 * limits.length = _; rw [I.rep.length_eq]
  have hn : (inputNet n M limits arcs).n = n := rfl
  refine ⟨s', a1, a3, ⟨fun a ha => ?_, fun v hv => ?_⟩, fun a ha => ?_⟩
  · have h2 : 2 * a < (inputNet n M limits arcs).E := by omega
    have h3 := P.anti _ h2
    have h4 := P.bd _ h2
    have h5 := P.bd _ ((inputNet_ok I).x_lt _ h2)
    rw [h3] at h5
    have hM : (inputNet n M limits arcs).M = M := rfl
    rw [hM] at h4 h5
    exact abs_le.2 ⟨by linarith, h4⟩
  · rw [outflow_eq I P.anti, P.circ v hv]
  · have hpos := epsExp_pos (n := n) I.U_pos
    have hs : slack (2 * ((n : Int) + 1) * R) (epsExp n U - 1) k = s'.epsilon := by
      rw [a3]
      unfold slack
      rw [if_neg (by omega), Nat.sub_add_cancel hpos]
    rw [← hs]
    exact epsOptimal_of I (pot := s'.scaling.get) P.anti P.opt ha

/-- the loop of `min_cost` is the sequence of the phases -/
theorem NetInput.phases_iterN (I : NetInput imax n M U R limits arcs) {fuel : Nat}
    (hf : minFuel n limits.length U R (2 * ((n : Int) + 1) * R) ≤ fuel) :
    ∃ s, Flow.mk' imax fuel n M U limits = .ok s ∧ Flow.phases imax fuel s = iterN (Flow.phase imax fuel) (phaseCount n U) s := by
  have hf0 : epsExp n U < fuel := by
    have h := hf
    unfold minFuel at h; omega
  obtain ⟨s, B, e1, e2, e3, e4, e5⟩ := NetInput.phases I hf
  refine ⟨s, e1, ?_⟩
  unfold Flow.phases
  refine whileLoop_iterN (fun j hj => ?_) hf0
  obtain ⟨s', a1, ⟨C, hC, P⟩, a3, a4⟩ := e5 j hj
  refine ⟨s', a1, ?_⟩
  rw [a3]
  congr 1
  rw [decide_eq_decide]
  have hj' : j ≤ epsExp n U := hj
  constructor
  · intro h
    by_contra hc
    have hc : ¬ j < epsExp n U := hc
    have : epsExp n U - j = 0 := by omega
    rw [this] at h
    simp at h
  · intro h
    have h : j < epsExp n U := h
    have : epsExp n U - j = (epsExp n U - j - 1) + 1 := by omega
    rw [this, pow_succ]
    have : (0 : Int) < 2 ^ (epsExp n U - j - 1) := by positivity
    omega

/-- `C83_dual` for a given number of steps -/
theorem NetInput.dual (I : NetInput imax n M U R limits arcs) {fuel : Nat}
    (hf2 : minFuel n limits.length U R (2 * ((n : Int) + 1) * R) ≤ fuel) :
    ∃ s s' v s'', Flow.mk' imax fuel n M U limits = .ok s ∧ Flow.phases imax fuel s = .ok s' ∧
      Flow.minCost imax fuel s = .ok (v, s'') ∧ IsLeast (Set.range (penalised M arcs)) v ∧
      DualFeasible n M arcs (fun k => s'.flows.get (2 * k)) ∧ DualValue arcs (fun k => s'.flows.get (2 * k)) v ∧
      (∀ g d, DualFeasible n M arcs g → DualValue arcs g d → d ≤ v) ∧
      (∀ h π, v + ∑ k : Fin arcs.length, s'.flows.get (2 * k) * (h k : K) ≤ penalisedAt M arcs h π) ∧
      ∃ t : Nat, t < 2 * (n + 1) ∧ penalised M arcs (fun i => (s'.scaling.get i + t) / (2 * ((n : Int) + 1))) = v := by
  obtain ⟨s, a1, a2⟩ := NetInput.phases_iterN I hf2
  obtain ⟨s₁, b1, b2⟩ := NetInput.afterPhase I hf2
  obtain ⟨s₂, c1, v, s'', c2, ⟨π, c3⟩, c4⟩ := Flow.minCost_spec (R := R) I.rep I.arcs I.M_nonneg I.U_pos I.cap.range I.R_nonneg
    I.cap.nodes le_rfl (by rw [← epsilon₀_eq]; exact I.cap.eps)
    (by have := I.cap.pot; rw [epsilon₀_half I.U_pos] at this; exact this) hf2
  rw [a1] at b1 c1
  cases b1
  cases c1
  obtain ⟨s', d1, d2, d3, d4⟩ := b2 (phaseCount n U) (epsExp_pos (n := n) I.U_pos) le_rfl
  have hi : ∀ p ∈ arcs, p.i ≤ n ∧ p.j ≤ n := fun p hp => ⟨(I.arcs p hp).i_le, (I.arcs p hp).j_le⟩
  have hle : ∀ p ∈ arcs, p.l ≤ p.u := fun p hp => (I.arcs p hp).le
  rw [Nat.sub_self, pow_zero] at d2
  rw [d2] at d4
  obtain ⟨d, hd⟩ := exists_dual hle (fun k => s'.flows.get (2 * k))
  obtain ⟨t, t1, t2⟩ := dual_opt I.M_nonneg I.arcs d3 hd d4
  have hdv : d = v := le_antisymm (by rw [c3]; exact dual_le' hi hle d3 hd π) (by rw [← t2]; exact c4 _)
  rw [hdv] at hd t2
  refine ⟨s, s', v, s'', a1, by rw [a2, d1], c2, ⟨⟨π, c3.symm⟩, ?_⟩, d3, hd, fun g d' h1 h2 => ?_, fun h π => dual_le hi hle d3 hd h π, t, t1, t2⟩
  · rintro _ ⟨π', rfl⟩
    exact c4 π'
  · rw [c3]
    exact dual_le' hi hle h1 h2 π

/-- C83. When the loop of `min_cost` has ended, `flows` is an optimal solution of the dual problem and `min_cost` returns its value. If `h k` is added to
the difference of the potentials at the `k`-th arc, the cost of all potentials is at least the result plus the sum of `flows[2 k] * h k`. And with the
potentials `scaling / (2 (n+1))`, all rounded alike, the penalised cost is the result. -/
theorem C83_dual (I : NetInput imax n M U R limits arcs) :
    ∃ N, ∀ fuel, N ≤ fuel → ∃ s s' v s'', Flow.mk' imax fuel n M U limits = .ok s ∧ Flow.phases imax fuel s = .ok s' ∧
      Flow.minCost imax fuel s = .ok (v, s'') ∧ IsLeast (Set.range (penalised M arcs)) v ∧
      DualFeasible n M arcs (fun k => s'.flows.get (2 * k)) ∧ DualValue arcs (fun k => s'.flows.get (2 * k)) v ∧
      (∀ g d, DualFeasible n M arcs g → DualValue arcs g d → d ≤ v) ∧
      (∀ h π, v + ∑ k : Fin arcs.length, s'.flows.get (2 * k) * (h k : K) ≤ penalisedAt M arcs h π) ∧
      ∃ t : Nat, t < 2 * (n + 1) ∧ penalised M arcs (fun i => (s'.scaling.get i + t) / (2 * ((n : Int) + 1))) = v :=
  ⟨_, fun _ hf => NetInput.dual I hf⟩

/-- The hypothesis is met by the example network. -/
example := C83_dual exArcs_input

/-- C83. Already after each phase `flows` gives a lower bound `d` of the result `v`, and with `epsilon` after the phase the potentials, all rounded alike,
cost at most `d + m M epsilon / (n+1)`, where `m` is the number of arcs; so `v` is at most that. -/
theorem C83_phases (I : NetInput imax n M U R limits arcs) :
    ∃ v N, Returns (flowMinCost imax n M U limits) v ∧ ∀ fuel, N ≤ fuel → ∃ s, Flow.mk' imax fuel n M U limits = .ok s ∧
      ∀ k, 1 ≤ k → k ≤ phaseCount n U → ∃ s' d, iterN (Flow.phase imax fuel) k s = .ok s' ∧ s'.epsilon = 2 ^ (phaseCount n U - k) ∧
        DualValue arcs (fun a => s'.flows.get (2 * a)) d ∧ d ≤ v ∧
        ∃ t : Nat, t < 2 * (n + 1) ∧ v ≤ penalised M arcs (fun i => (s'.scaling.get i + t) / (2 * ((n : Int) + 1))) ∧
          penalised M arcs (fun i => (s'.scaling.get i + t) / (2 * ((n : Int) + 1))) ≤ d + arcs.length * M * s'.epsilon / (n + 1) := by
  obtain ⟨v, v1, ⟨π, v2⟩, v3⟩ := C21_min_cost I
  refine ⟨v, minFuel n limits.length U R (2 * ((n : Int) + 1) * R), v1, fun fuel hf => ?_⟩
  obtain ⟨s, b1, b2⟩ := NetInput.afterPhase I hf
  refine ⟨s, b1, fun k k1 k2 => ?_⟩
  obtain ⟨s', d1, d2, d3, d4⟩ := b2 k k1 k2
  have hi : ∀ p ∈ arcs, p.i ≤ n ∧ p.j ≤ n := fun p hp => ⟨(I.arcs p hp).i_le, (I.arcs p hp).j_le⟩
  have hle : ∀ p ∈ arcs, p.l ≤ p.u := fun p hp => (I.arcs p hp).le
  obtain ⟨d, hd⟩ := exists_dual hle (fun k => s'.flows.get (2 * k))
  have hN : (((2 * (n + 1) : Nat) : Int)) = 2 * ((n : Int) + 1) := by push_cast; ring
  obtain ⟨t, t1, t2⟩ := dual_gap I.M_nonneg I.arcs d3 hd (N := 2 * (n + 1)) (by omega) (c := s'.epsilon) (by rw [d2]; positivity)
    (by rw [hN]; exact d4)
  rw [hN] at t2
  refine ⟨s', d, d1, d2, hd, by rw [← v2]; exact dual_le' hi hle d3 hd π, t, t1, v3 ⟨_, rfl⟩, ?_⟩
  have hp : (0 : K) < n + 1 := by positivity
  rw [← sub_le_iff_le_add', le_div_iff₀ hp]
  push_cast at t2
  linarith

/-- The hypothesis is met by the example network. -/
example : NetInput (2 ^ 31 - 1) 2 (10 : ℚ) 2 2 exLimits exArcs := exArcs_input

end
end AHO.Props
