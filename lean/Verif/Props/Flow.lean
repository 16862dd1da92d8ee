import Verif.Proof.FlowSteps
import Verif.Proof.Solve
import Mathlib.Algebra.Order.Ring.Rat
/-!
# Properties of the network algorithm
-/

namespace AHO.Props
open Spec Flow

/-! ### An example network -/

/-- two arcs to node 0 with the costs `x²` and `(x-1)²` on `[0, 2]`, and one between the nodes -/
def exArcs : List (Pair ℚ) :=
  [⟨1, 0, 0, 2, fun x => (x : ℚ) * x⟩, ⟨2, 0, 0, 2, fun x => ((x : ℚ) - 1) * (x - 1)⟩, ⟨1, 2, 1, 2, fun x => 3 * (x : ℚ)⟩]

def exLimits : List (OmegaLimit ℚ) := exArcs.map fun p => { l := p.l, u := p.u, fn := fun x => .ok (p.B x), i := p.i, j := p.j }

theorem exArcs_rep : List.Forall₂ OmegaLimit.Is exLimits exArcs := by
  unfold exLimits
  rw [List.forall₂_map_left_iff, List.forall₂_same]
  intro p _
  exact ⟨rfl, rfl, rfl, rfl, fun _ _ _ => rfl⟩

theorem exArcs_ok : ∀ p ∈ exArcs, ArcOK 2 10 2 p := by
  intro p hp
  simp only [exArcs, List.mem_cons, List.not_mem_nil, or_false] at hp
  rcases hp with rfl | rfl | rfl
  · refine ⟨by decide, by decide, by decide, by decide, by decide, by decide, fun x h1 h2 => ?_, fun x h1 h2 => ?_⟩
    · push_cast; nlinarith
    · have h1 : (0 : ℚ) ≤ x := by exact_mod_cast h1
      have h2 : (x : ℚ) + 1 ≤ 2 := by exact_mod_cast h2
      push_cast
      rw [abs_le]; constructor <;> nlinarith
  · refine ⟨by decide, by decide, by decide, by decide, by decide, by decide, fun x h1 h2 => ?_, fun x h1 h2 => ?_⟩
    · push_cast; nlinarith
    · have h1 : (0 : ℚ) ≤ x := by exact_mod_cast h1
      have h2 : (x : ℚ) + 1 ≤ 2 := by exact_mod_cast h2
      push_cast
      rw [abs_le]; constructor <;> nlinarith
  · refine ⟨by decide, by decide, by decide, by decide, by decide, by decide, fun x h1 h2 => ?_, fun x h1 h2 => ?_⟩
    · push_cast; nlinarith
    · push_cast
      rw [abs_le]; constructor <;> nlinarith

theorem ex_epsilon₀ : epsilon₀ 2 2 = 16 := by
  have : Nat.clog 2 12 = 4 := by
    decide +kernel
  simp [epsilon₀, bitCeil, this]

/-- The hypothesis of C21, C23, C24, C25 and C26 is met. -/
theorem exArcs_input : NetInput (2 ^ 31 - 1) 2 (10 : ℚ) 2 2 exLimits exArcs :=
  ⟨exArcs_rep, exArcs_ok, by norm_num, by decide, by decide, by
    constructor <;> simp [ex_epsilon₀]⟩

section
variable {K : Type} [Field K] [LinearOrder K] [IsStrictOrderedRing K]
variable {imax : Int} {n : Nat} {M : K} {U R : Int} {limits : List (OmegaLimit K)} {arcs : List (Pair K)}

/-- `Flow(n, M, U, limits).min_cost()` -/
def flowMinCost (imax : Int) (n : Nat) (M : K) (U : Int) (limits : List (OmegaLimit K)) (fuel : Nat) : Res K := do
  let s ← Flow.mk' imax fuel n M U limits
  let (v, _) ← Flow.minCost imax fuel s
  .ok v

omit [IsStrictOrderedRing K] in
theorem flowMinCost_le {f f' : Nat} (hf : f ≤ f') : Le (flowMinCost imax n M U limits f) (flowMinCost imax n M U limits f') :=
  (Flow.mk'_le hf n M U limits).bind fun s => (Flow.minCost_le hf s).bind fun _ => .refl _

/-- The number of phases: the logarithm of the first `epsilon`. -/
def phaseCount (n : Nat) (U : Int) : Nat := Nat.clog 2 (2 * (n + 1) * U.toNat)

/-- C21. `min_cost` returns the least value of the penalised problem. -/
theorem C21_min_cost (I : NetInput imax n M U R limits arcs) :
    ∃ v, Returns (flowMinCost imax n M U limits) v ∧ IsLeast (Set.range (penalised M arcs)) v := by
  have key : ∀ fuel, minFuel n limits.length U R (2 * ((n : Int) + 1) * R) ≤ fuel → ∃ v, flowMinCost imax n M U limits fuel = .ok v ∧
      IsLeast (Set.range (penalised M arcs)) v := by
    intro fuel hf
    obtain ⟨s, e1, v, s', e2, ⟨π, e3⟩, e4⟩ := Flow.minCost_spec (R := R) I.rep I.arcs I.M_nonneg I.U_pos I.cap.range I.R_nonneg
      I.cap.nodes le_rfl (by rw [← epsilon₀_eq]; exact I.cap.eps)
      (by have := I.cap.pot; rw [epsilon₀_half I.U_pos] at this; exact this) hf
    refine ⟨v, ?_, ⟨π, e3.symm⟩, ?_⟩
    · unfold flowMinCost; rw [e1, ok_bind, e2, ok_bind]
    · rintro _ ⟨π', rfl⟩; exact e4 π'
  obtain ⟨v, -, h⟩ := key _ le_rfl
  refine ⟨v, returns_of (minFuel n limits.length U R (2 * ((n : Int) + 1) * R)) (fun fuel hf => ?_)
    fun f f' hff => flowMinCost_le hff, h⟩
  obtain ⟨v', e1, e2⟩ := key fuel hf
  rw [e1, h.unique e2]

/-- The hypothesis is met by the example network. -/
example : NetInput (2 ^ 31 - 1) 2 (10 : ℚ) 2 2 exLimits exArcs := exArcs_input

/-- C22. `calc` determines `valid_cost_max` and `M` so that the result of `min_cost` tells whether all ranges can be respected:
if so, it is the least cost and at most `valid_cost_max`, otherwise it is at least `valid_cost_max + 1`. (Not all ranges are
points, or they can be respected: `ProblemSolver` only uses such networks.) -/
theorem C22_threshold {W : Nat} (rep : List.Forall₂ OmegaLimit.Is limits arcs) (good : ∀ p ∈ arcs, ArcIn n R W p)
    (hR0 : 0 ≤ R) (hRW : R ≤ W) (cap : ((6 * (n + 1) * bitCeil ((n + 1) * W) : Nat) : Int) ≤ imax)
    (hz : (∃ p ∈ arcs, p.l < p.u) ∨ ∃ π, ArcsFeasible arcs π) :
    ∃ validCostMax M U v, Returns (fun fuel => ProblemSolver.calc' imax fuel limits) (validCostMax, M, U) ∧
      Returns (flowMinCost imax n M U limits) v ∧
      ((∃ π, ArcsFeasible arcs π) → v ≤ validCostMax ∧ IsLeast {w | ∃ π, ArcsFeasible arcs π ∧ w = arcsCost arcs π} v) ∧
      ((¬ ∃ π, ArcsFeasible arcs π) → validCostMax + 1 ≤ v) := by
  have key : ∀ fuel, solveFuel n limits.length R W ≤ fuel → _ := fun fuel hf =>
    ProblemSolver.network_spec (imax := imax) (W := W) rep good hR0 hRW (by push_cast at cap ⊢; simpa using cap)
    (by
      intro hpt
      rcases hz with ⟨p, hp, h⟩ | h
      · have := hpt p hp; omega
      · exact h) hf
  obtain ⟨U, v, c1, -, -, s, e1, s', e2, e3, e4⟩ := key _ le_rfl
  have c1' : Returns (fun fuel => ProblemSolver.calc' imax fuel limits) (vcm arcs, bigM arcs, U) := by
    refine returns_of (solveFuel n limits.length R W) (fun fuel hf => ?_) fun f f' hff => ProblemSolver.calcLoop_le hff _ _
    rcases ProblemSolver.calcLoop_le (D := K) (imax := imax) hf limits (0, 1, 0) with h | h
    · unfold ProblemSolver.calc' at c1; rw [c1] at h; cases h
    · unfold ProblemSolver.calc' at c1 ⊢; rw [← h, c1]
  refine ⟨vcm arcs, bigM arcs, U, v, c1', ?_, ?_, ?_⟩
  · refine returns_of (solveFuel n limits.length R W) (fun fuel hf => ?_) fun f f' hff => flowMinCost_le hff
    have h0 : flowMinCost imax n (bigM arcs) U limits (solveFuel n limits.length R W) = .ok v := by
      unfold flowMinCost; rw [e1, ok_bind, e2, ok_bind]
    rcases flowMinCost_le (imax := imax) (n := n) (M := bigM arcs) (U := U) (limits := limits) hf with h | h
    · rw [h0] at h; cases h
    · rw [← h, h0]
  · intro hfe
    have h := outcome_of_min good e3 e4
    have hle : v ≤ vcm arcs := by
      obtain ⟨π, hπ⟩ := hfe
      have := e4 π
      rw [penalised_feasible hπ] at this
      exact this.trans (arcsCost_le good hπ)
    rw [if_neg (not_lt.2 hle)] at h
    rcases h with ⟨h, -⟩ | ⟨v', h, h', h''⟩
    · cases h
    · cases h
      refine ⟨hle, ?_, ?_⟩
      · obtain ⟨π, h1, h2⟩ := h'; exact ⟨π, h1, h2.symm⟩
      · rintro w ⟨π, h1, rfl⟩; exact h'' ⟨π, h1, rfl⟩
  · intro hn
    obtain ⟨π, rfl⟩ := e3
    exact penalised_infeasible good fun h => hn ⟨π, h⟩

/-- The hypotheses of C22 are met. -/
example : (∀ p ∈ exArcs, ArcIn 2 2 (2 : Nat) p) ∧ (2 : Int) ≤ (2 : Nat) ∧
    ((6 * (2 + 1) * bitCeil ((2 + 1) * 2) : Nat) : Int) ≤ 2 ^ 31 - 1 ∧ (∃ p ∈ exArcs, p.l < p.u) := by
  refine ⟨fun p hp => ?_, by decide, ?_, ⟨_, List.mem_cons_self, by decide⟩⟩
  · have h := exArcs_ok p hp
    refine ⟨h.i_le, h.j_le, h.ne, h.le, h.lo, h.hi, ?_, h.conv⟩
    simp only [exArcs, List.mem_cons, List.not_mem_nil, or_false] at hp
    rcases hp with rfl | rfl | rfl <;> decide
  · have : Nat.clog 2 6 = 3 := by decide +kernel
    simp [bitCeil, this]

/-- C23. Before the first and after every phase: no node has an imbalance, all nodes are roots of the dynamic forest, the queue
is empty; the flow of edge `2k+1` is the opposite of that of `2k`, is at most `M` in absolute value, and is conserved in every node. -/
theorem C23_balanced_after_phases (I : NetInput imax n M U R limits arcs) :
    ∃ N, ∀ fuel, N ≤ fuel → ∃ s, Flow.mk' imax fuel n M U limits = .ok s ∧ ∀ k, k ≤ phaseCount n U →
      ∃ s', iterN (Flow.phase imax fuel) k s = .ok s' ∧
        (∀ v, v ≤ n → s'.imbalances.rd v = .ok 0 ∧ s'.fa.rd v = .ok none ∧ outflow arcs (fun a => s'.flows.get (2 * a)) v = 0) ∧
        s'.uq.empty = true ∧
        ∀ a, a < arcs.length → s'.flows.get (2 * a + 1) = -s'.flows.get (2 * a) ∧ |s'.flows.get (2 * a)| ≤ M := by
  refine ⟨minFuel n limits.length U R (2 * ((n : Int) + 1) * R), fun fuel hf => ?_⟩
  obtain ⟨s, B, e1, e2, e3, e4, e5⟩ := NetInput.phases I hf
  refine ⟨s, e1, fun k hk => ?_⟩
  obtain ⟨s', a1, ⟨C, hC, P⟩, a3, a4⟩ := e5 k hk
  have hE : (inputNet n M limits arcs).E = 2 * arcs.length := by show 2 * limits.length = _; rw [I.rep.length_eq]
  have hn : (inputNet n M limits arcs).n = n := rfl
  refine ⟨s', a1, fun v hv => ⟨?_, ?_, ?_⟩, by simp [UQ.empty, P.qe], fun a ha => ?_⟩
  · rw [Vec.rd_ok (by rw [P.st.isz, hn]; omega), P.bal v hv]
  · rw [Vec.rd_ok (by rw [P.st.fsz, hn]; omega), P.root v hv]
  · rw [outflow_eq I P.anti, P.circ v hv]
  · have h2 : 2 * a < (inputNet n M limits arcs).E := by omega
    have hx : 2 * a + 1 = (2 * a) ^^^ 1 := (two_xor a).symm
    have h3 := P.anti _ h2
    have h4 := P.bd _ h2
    have h5 := P.bd _ ((inputNet_ok I).x_lt _ h2)
    rw [h3] at h5
    refine ⟨by rw [hx, h3], abs_le.2 ⟨?_, h4⟩⟩
    have hM : (inputNet n M limits arcs).M = M := rfl
    rw [hM] at h5
    linarith

/-- The hypothesis is met by the example network. -/
example : NetInput (2 ^ 31 - 1) 2 (10 : ℚ) 2 2 exLimits exArcs := exArcs_input

/-- C24. After every phase the flow and the potentials `scaling / (2(n+1))` satisfy complementary slackness up to the new
`epsilon`; after phase `k` this is `2^(phaseCount - k)`. -/
theorem C24_epsilon_optimal_after_phases (I : NetInput imax n M U R limits arcs) :
    ∃ N, ∀ fuel, N ≤ fuel → ∃ s, Flow.mk' imax fuel n M U limits = .ok s ∧ ∀ k, 1 ≤ k → k ≤ phaseCount n U →
      ∃ s', iterN (Flow.phase imax fuel) k s = .ok s' ∧ s'.epsilon = 2 ^ (phaseCount n U - k) ∧
        ∀ (a : Nat) (ha : a < arcs.length), EpsOptimal M (2 * ((n : Int) + 1)) s'.epsilon arcs[a]
          (s'.scaling.get arcs[a].i - s'.scaling.get arcs[a].j) (s'.flows.get (2 * a)) := by
  refine ⟨minFuel n limits.length U R (2 * ((n : Int) + 1) * R), fun fuel hf => ?_⟩
  obtain ⟨s, B, e1, e2, e3, e4, e5⟩ := NetInput.phases I hf
  refine ⟨s, e1, fun k hk1 hk => ?_⟩
  obtain ⟨s', a1, ⟨C, hC, P⟩, a3, a4⟩ := e5 k hk
  refine ⟨s', a1, a3, fun a ha => ?_⟩
  have hpos := epsExp_pos (n := n) I.U_pos
  have hs : slack (2 * ((n : Int) + 1) * R) (epsExp n U - 1) k = s'.epsilon := by
    rw [a3]
    unfold slack
    rw [if_neg (by omega), Nat.sub_add_cancel hpos]
  rw [← hs]
  exact epsOptimal_of I (pot := s'.scaling.get) P.anti P.opt ha

/-- The hypothesis is met by the example network. -/
example : NetInput (2 ^ 31 - 1) 2 (10 : ℚ) 2 2 exLimits exArcs := exArcs_input

/-- C26. `min_cost` runs exactly `phaseCount` phases. In each, the potential of every node grows by a multiple `r` of `epsilon/2`,
the increment of one relabelling; `r ≤ 3n+1` in all phases but the first. In the first phase the same holds if the ranges are
within `U` of zero, and otherwise `r` is bounded by a number which depends on their distance `R` from zero. -/
theorem C26_relabel_bound (I : NetInput imax n M U R limits arcs) :
    ∃ N, ∀ fuel, N ≤ fuel → ∃ s, Flow.mk' imax fuel n M U limits = .ok s ∧
      Flow.phases imax fuel s = iterN (Flow.phase imax fuel) (phaseCount n U) s ∧ ∀ k, k < phaseCount n U →
      ∃ s₁ s₂, iterN (Flow.phase imax fuel) k s = .ok s₁ ∧ Flow.phase imax fuel s₁ = .ok s₂ ∧
        ∀ v, v ≤ n → ∃ r : Nat, s₂.scaling.get v = s₁.scaling.get v + s₁.epsilon / 2 * r ∧
          (1 ≤ k ∨ R ≤ U → r ≤ 3 * n + 1) ∧ s₁.epsilon / 2 * r ≤ n * (2 * (n + 1) * max R U + s₁.epsilon) + s₁.epsilon := by
  refine ⟨minFuel n limits.length U R (2 * ((n : Int) + 1) * R), fun fuel hf => ?_⟩
  have hf0 : epsExp n U < fuel := by
    have h := hf
    unfold minFuel at h; omega
  obtain ⟨s, B, e1, e2, e3, e4, e5⟩ := NetInput.phases I hf
  refine ⟨s, e1, ?_, fun k hk => ?_⟩
  · unfold Flow.phases
    refine whileLoop_iterN (fun j hj => ?_) hf0
    obtain ⟨s', a1, ⟨C, hC, P⟩, a3, a4⟩ := e5 j hj
    refine ⟨s', a1, ?_⟩
    rw [a3]
    congr 1
    rw [decide_eq_decide]
    have hj' : j ≤ epsExp n U := hj
    constructor
    · intro h
      by_contra hc
      have hc : ¬ j < epsExp n U := hc
      have : epsExp n U - j = 0 := by omega
      rw [this] at h
      simp at h
    · intro h
      have h : j < epsExp n U := h
      have : epsExp n U - j = (epsExp n U - j - 1) + 1 := by omega
      rw [this, pow_succ]
      have : (0 : Int) < 2 ^ (epsExp n U - j - 1) := by positivity
      omega
  · have hk' : k < epsExp n U := hk
    obtain ⟨s', a1, ⟨C, hC, P⟩, a3, a4⟩ := e5 k hk'.le
    obtain ⟨St, hph⟩ := a4 hk
    have h2 : (2 : Int) ^ (epsExp n U - k) = 2 * 2 ^ (epsExp n U - 1 - k) := by
      rw [show epsExp n U - k = (epsExp n U - 1 - k) + 1 by omega, pow_succ]; ring
    set h : Int := 2 ^ (epsExp n U - 1 - k) with hh
    have hpos : 0 < h := by positivity
    have hdiv : s'.epsilon.tdiv 2 = h := by
      rw [a3, h2, Int.mul_tdiv_cancel_left _ (by norm_num)]
    have hdiv' : s'.epsilon / 2 = h := by rw [a3, h2]; omega
    obtain ⟨ed, rm⟩ := room_id (net := inputNet n M limits arcs)
      (C := C - (inputNet n M limits arcs).E * (inputNet n M limits arcs).M) I.M_nonneg (by linarith)
    obtain ⟨s2, r, p1, p2, p3, p4, p5, -⟩ := P.phase (inputNet_ok I) rm hdiv St hph
    refine ⟨s', s2, a1, p1, fun v hv => ⟨r v, ?_, ?_, ?_⟩⟩
    · rw [p4 v hv, hdiv']
    · have h5 := (p5 v hv).2
      have hn : (inputNet n M limits arcs).n = n := rfl
      rw [hn] at h5
      intro hor
      have hsl : slack (2 * ((n : Int) + 1) * R) (epsExp n U - 1) k ≤ 2 * h := by
        unfold slack
        split
        · rename_i hk0
          subst hk0
          have hRU : R ≤ U := by rcases hor with h | h; omega; exact h
          have h6 := epsExp_le (n := n) (U := U) (by have := I.U_pos; omega)
          rw [Nat.sub_zero] at h2
          rw [← h2]
          exact le_trans (Int.mul_le_mul_of_nonneg_left hRU (by omega)) h6
        · rw [show epsExp n U - 1 + 1 - k = epsExp n U - k by omega, h2]
      have h7 : (n : Int) * (slack (2 * ((n : Int) + 1) * R) (epsExp n U - 1) k + h) ≤ n * (2 * h + h) :=
        Int.mul_le_mul_of_nonneg_left (by omega) (by omega)
      have h8 : h * (r v : Int) ≤ h * (3 * n + 1) := by
        have : h * (3 * n + 1) = (n : Int) * (2 * h + h) + h := by ring
        omega
      have := le_of_mul_le_mul_left h8 hpos
      omega
    · have h5 := (p5 v hv).2
      have hn : (inputNet n M limits arcs).n = n := rfl
      rw [hn] at h5
      rw [hdiv', a3, h2]
      have hsl : slack (2 * ((n : Int) + 1) * R) (epsExp n U - 1) k ≤ 2 * (n + 1) * max R U + h := by
        unfold slack
        split
        · have : 2 * ((n : Int) + 1) * R ≤ 2 * (n + 1) * max R U := Int.mul_le_mul_of_nonneg_left (le_max_left _ _) (by omega)
          omega
        · rename_i hk0
          rw [show epsExp n U - 1 + 1 - k = epsExp n U - k by omega, h2]
          have h6 := lt_of_lt_epsExp (n := n) (U := U) (t := epsExp n U - k) (by have := I.U_pos; omega) (by omega)
          have : 2 * ((n : Int) + 1) * U ≤ 2 * (n + 1) * max R U := Int.mul_le_mul_of_nonneg_left (le_max_right _ _) (by omega)
          omega
      have h7 : (n : Int) * (slack (2 * ((n : Int) + 1) * R) (epsExp n U - 1) k + h) ≤ n * (2 * (n + 1) * max R U + 2 * h) :=
        Int.mul_le_mul_of_nonneg_left (by omega) (by omega)
      omega

/-- The hypothesis is met by the example network; all ranges are within `U` of zero, there are four phases. -/
example : NetInput (2 ^ 31 - 1) 2 (10 : ℚ) 2 2 exLimits exArcs ∧ (2 : Int) ≤ 2 ∧ phaseCount 2 2 = 4 :=
  ⟨exArcs_input, le_rfl, by decide +kernel⟩

/-- C25. In every phase, before every round of the loop of `refine`: the queued nodes are exactly those with a positive
imbalance, they are roots, the parent links have no cycle, and the link-cut tree agrees with them. The loop ends after finitely
many rounds. Each round leaves the potentials as they are or raises that of the front node by `epsilon/2`. -/
theorem C25_active_nodes_are_roots (I : NetInput imax n M U R limits arcs) :
    ∃ N, ∀ fuel, N ≤ fuel → ∃ s, Flow.mk' imax fuel n M U limits = .ok s ∧ ∀ k, k < phaseCount n U →
      ∃ s₁ s₂, iterN (Flow.phase imax fuel) k s = .ok s₁ ∧ pushAllAdmissibleEdge imax (initialization s₁) = .ok s₂ ∧
      ∃ J, whileLoop (fun s : Flow K => .ok (!s.uq.empty)) (refineStep imax fuel) fuel s₂ = iterN (refineStep imax fuel) J s₂ ∧
        ∀ j, j ≤ J → ∃ s', iterN (refineStep imax fuel) j s₂ = .ok s' ∧
          (∀ v, v ≤ n → (v ∈ s'.uq.queue ↔ 0 < s'.imbalances.get v)) ∧
          (∀ v, v ≤ n → 0 < s'.imbalances.get v → s'.fa.get v = none) ∧
          (∀ v, ¬ Relation.TransGen (fun a b => s'.fa.get a = some b) v v) ∧
          (∀ v, v ≤ n → ∃ r h, LCT.findRoot fuel s'.nodes v = .ok (r, h) ∧ s'.fa.get r = none ∧
            Relation.ReflTransGen (fun a b => s'.fa.get a = some b) v r) ∧
          (j < J → ∃ p s'', s'.uq.front = .ok p ∧ refineStep imax fuel s' = .ok s'' ∧
            (s''.scaling = s'.scaling ∨ s''.scaling = s'.scaling.set p (s'.scaling.get p + s₁.epsilon / 2))) := by
  refine ⟨minFuel n limits.length U R (2 * ((n : Int) + 1) * R), fun fuel hf => ?_⟩
  obtain ⟨s, B, e1, e2, e3, e4, e5⟩ := NetInput.phases I hf
  refine ⟨s, e1, fun k hk => ?_⟩
  have hk' : k < epsExp n U := hk
  obtain ⟨s₁, a1, ⟨C, hC, P⟩, a3, a4⟩ := e5 k hk'.le
  obtain ⟨St, hph⟩ := a4 hk
  have h2 : (2 : Int) ^ (epsExp n U - k) = 2 * 2 ^ (epsExp n U - 1 - k) := by
    rw [show epsExp n U - k = (epsExp n U - 1 - k) + 1 by omega, pow_succ]; ring
  have hdiv : s₁.epsilon.tdiv 2 = 2 ^ (epsExp n U - 1 - k) := by
    rw [a3, h2, Int.mul_tdiv_cancel_left _ (by norm_num)]
  have hdiv' : s₁.epsilon / 2 = 2 ^ (epsExp n U - 1 - k) := by rw [a3, h2]; omega
  obtain ⟨ed, rm⟩ := room_id (net := inputNet n M limits arcs)
    (C := C - (inputNet n M limits arcs).E * (inputNet n M limits arcs).M) I.M_nonneg (by linarith)
  obtain ⟨s₂, f, w, b1, b2, -⟩ := P.begin (inputNet_ok I) rm hdiv St
  have hfu := phaseFuel_ge (net := inputNet n M limits arcs) (relabels n B k)
  obtain ⟨J, hJ, hr⟩ := RInv.rounds (inputNet_ok I) rm (hfu.1.trans hph) (hfu.2.trans hph) St _ s₂ f w _ _ b2 rfl
  have hJ' : J < fuel := lt_of_le_of_lt hJ ((measR_lt _).trans_le hph)
  refine ⟨s₁, s₂, a1, b1, J, whileLoop_iterN (fun j hj => ?_) hJ', fun j hj => ?_⟩
  · obtain ⟨s', -, -, -, -, c1, -, c3, -⟩ := hr j hj
    refine ⟨s', c1, ?_⟩
    congr 1
    by_cases hjJ : j < J
    · rw [decide_eq_true hjJ]
      have := c3.1 hjJ
      simp [UQ.empty, this]
    · rw [decide_eq_false hjJ]
      have : s'.uq.queue = [] := by
        by_contra hne; exact hjJ (c3.2 hne)
      simp [UQ.empty, this]
  · obtain ⟨s', f', w', τ', k', c1, c2, c3, -⟩ := hr j hj
    have hn : (inputNet n M limits arcs).n = n := rfl
    have hsz : s'.nodes.size = n + 1 := c2.A.I.st.nsz
    refine ⟨s', c1, fun v hv => c2.A.mem v hv, fun v hv => c2.A.act v hv, ?_, fun v hv => ?_, fun hjJ => ?_⟩
    · obtain ⟨tr, I'⟩ := c2.A.I.rep
      exact I'.acyc
    · obtain ⟨r, h, d1, d2, d3, d4, d5, d6, -⟩ := c2.A.I.rep.findRoot (x := v) (fuel := fuel) (by omega)
        (by have := hfu.1.trans hph; rw [hn] at this; omega)
      exact ⟨r, h, d1, d6, d5⟩
    · have hq := c3.1 hjJ
      cases hq' : s'.uq.queue with
      | nil => exact absurd hq' hq
      | cons p xs =>
        obtain ⟨s'', f'', w'', τ'', k'', g1, -, -, g4, -⟩ := c2.step (inputNet_ok I) rm (hfu.1.trans hph) (hfu.2.trans hph) St hq'
        refine ⟨p, s'', UQ.front_spec hq', g1, ?_⟩
        rw [hdiv']
        exact g4

/-- The hypothesis is met by the example network. -/
example : NetInput (2 ^ 31 - 1) 2 (10 : ℚ) 2 2 exLimits exArcs := exArcs_input

/-- C35. The constructor of `Flow` succeeds (also for `U = 0`), sets `epsilon` to the least power of two that is not below
`2(n+1)U`, and stores the `k`-th limit as edge `2k` and its reversal as edge `2k+1`; the adjacency list of a node consists of the
edges starting there, in ascending order. -/
theorem C35_constructor (rep : List.Forall₂ OmegaLimit.Is limits arcs) (good : ∀ p ∈ arcs, ArcOK n M R p) (hM : 0 ≤ M)
    (hU : 0 ≤ U) (hR : R ≤ imax) (hn : 2 * ((n : Int) + 1) ≤ imax) (heps : (epsilon₀ n U : Int) ≤ imax) :
    ∃ s, Returns (fun fuel => Flow.mk' imax fuel n M U limits) s ∧
      (∃ t : Nat, s.epsilon = 2 ^ t ∧ 2 * (n + 1) * U ≤ s.epsilon ∧ ∀ t', t' < t → (2 : Int) ^ t' < 2 * (n + 1) * U) ∧
      s.edges.size = 2 * arcs.length ∧ s.G.size = n + 1 ∧
      (∀ (k : Nat) (hk : k < arcs.length), (s.edges.get (2 * k)).Is arcs[k] ∧
        (s.edges.get (2 * k + 1)).Is ⟨arcs[k].j, arcs[k].i, -arcs[k].u, -arcs[k].l, fun x => arcs[k].B (-x)⟩) ∧
      ∀ v, v ≤ n → s.G.get v = (List.range (2 * arcs.length)).filter fun e => (s.edges.get e).i = v := by
  have hL := limOK_of rep good
  have key : ∀ fuel, epsExp n U < fuel → _ := fun fuel hf =>
    mk'_spec (FEmb.id K) trivial (imax := imax) (W := R) (gs := fun k => (arcs.getD k default).B) hM hU hL hR hn
      (by rw [← epsilon₀_eq]; exact heps) hf (le_refl (2 * ((n : Int) + 1) * R))
  obtain ⟨s, e1, e2, e3, e4, P, -⟩ := key (epsExp n U + 1) (by omega)
  have hlen := rep.length_eq
  have hE : (inputNet n M limits arcs).E = 2 * arcs.length := by show 2 * limits.length = _; rw [hlen]
  have hL' : ∀ k, k < limits.length → LimOK n M R (limits.getD k default) (arcs.getD k default).B := by
    intro k hk
    have := hL k hk
    have e : limits.getD k default = limits[k] := by
      simp [List.getD_eq_getElem?_getD, List.getElem?_eq_getElem hk]
    rw [e]; exact this
  refine ⟨s, ?_, ⟨epsExp n U, e2, by rw [e2]; exact epsExp_le hU, fun t' ht => lt_of_lt_epsExp hU ht⟩,
    P.st.esz.trans hE, P.st.gsz, fun k hk => ?_, fun v hv => ?_⟩
  · refine returns_of (epsExp n U + 1) (fun fuel hf => ?_) fun f f' hff => Flow.mk'_le hff _ _ _ _
    rcases Flow.mk'_le (imax := imax) hf n M U limits with h | h
    · rw [e1] at h; cases h
    · rw [← h, e1]
  · have hk' : k < limits.length := by omega
    have h := (List.forall₂_iff_get.1 rep).2 k hk' hk
    simp only [List.get_eq_getElem] at h
    have ea : arcs.getD k default = arcs[k] := by simp [List.getD_eq_getElem?_getD, List.getElem?_eq_getElem hk]
    have el : limits.getD k default = limits[k] := by simp [List.getD_eq_getElem?_getD, List.getElem?_eq_getElem hk']
    have h0 : 2 * k < (netOf n M (fun k => limits.getD k default) (fun k => (arcs.getD k default).B) limits.length).E := by
      show _ < 2 * limits.length; omega
    have h1 : 2 * k + 1 < (netOf n M (fun k => limits.getD k default) (fun k => (arcs.getD k default).B) limits.length).E := by
      show _ < 2 * limits.length; omega
    constructor
    · have := P.st.ef _ h0
      constructor
      · rw [P.st.ei _ h0]; simp only [netOf, par0, half0, if_true]; rw [el, h.i]
      · rw [P.st.ej _ h0]; simp only [netOf, par0, half0, if_true]; rw [el, h.j]
      · rw [P.st.el _ h0]; simp only [netOf, par0, half0, if_true]; rw [el, h.l]
      · rw [P.st.eu _ h0]; simp only [netOf, par0, half0, if_true]; rw [el, h.u]
      · simp only [netOf, par0, half0, if_true] at this
        rw [el, ea, h.l, h.u] at this
        exact this
    · have := P.st.ef _ h1
      constructor
      · rw [P.st.ei _ h1]; simp only [netOf, par1, half1, one_ne_zero, if_false]; rw [el, h.j]
      · rw [P.st.ej _ h1]; simp only [netOf, par1, half1, one_ne_zero, if_false]; rw [el, h.i]
      · rw [P.st.el _ h1]; simp only [netOf, par1, half1, one_ne_zero, if_false]; rw [el, h.u]
      · rw [P.st.eu _ h1]; simp only [netOf, par1, half1, one_ne_zero, if_false]; rw [el, h.l]
      · simp only [netOf, par1, half1, one_ne_zero, if_false] at this
        rw [el, ea, h.l, h.u] at this
        exact this
  · rw [P.st.g v hv]
    unfold Net.out
    have hE' : (netOf n M (fun k => limits.getD k default) (fun k => (arcs.getD k default).B) limits.length).E = 2 * arcs.length := hE
    rw [hE']
    refine List.filter_congr fun e he => ?_
    rw [P.st.ei e (by rw [hE']; simpa using he)]

/-- The hypotheses are met by the example network. -/
example : List.Forall₂ OmegaLimit.Is exLimits exArcs ∧ (∀ p ∈ exArcs, ArcOK 2 10 2 p) ∧ (0 : ℚ) ≤ 10 ∧ (0 : Int) ≤ 2 ∧
    (2 : Int) ≤ 2 ^ 31 - 1 ∧ 2 * (((2 : Nat) : Int) + 1) ≤ 2 ^ 31 - 1 ∧ (epsilon₀ 2 2 : Int) ≤ 2 ^ 31 - 1 :=
  ⟨exArcs_rep, exArcs_ok, by norm_num, by decide, by decide, by decide, by rw [ex_epsilon₀]; decide⟩

end

/-- C21 needs `U ≥ 1`. Three arcs with point ranges which contradict each other: with `U = 0` no phase is run, and the result `0`
is below every value of the penalised problem. -/
theorem C21_fails_for_zero_width : ∃ (limits : List (OmegaLimit ℚ)) (arcs : List (Pair ℚ)),
    List.Forall₂ OmegaLimit.Is limits arcs ∧ (∀ p ∈ arcs, ArcOK 2 1 5 p) ∧ (∀ p ∈ arcs, p.u - p.l ≤ 0) ∧
    Returns (flowMinCost (2 ^ 31 - 1) 2 1 0 limits) 0 ∧ ∀ π, 0 < penalised 1 arcs π := by
  let arcs : List (Pair ℚ) := [⟨1, 0, 0, 0, fun _ => 0⟩, ⟨2, 0, 0, 0, fun _ => 0⟩, ⟨1, 2, 5, 5, fun _ => 0⟩]
  let limits : List (OmegaLimit ℚ) := arcs.map fun p => { l := p.l, u := p.u, fn := fun x => .ok (p.B x), i := p.i, j := p.j }
  have rep : List.Forall₂ OmegaLimit.Is limits arcs := by
    rw [List.forall₂_map_left_iff, List.forall₂_same]
    intro p _
    exact ⟨rfl, rfl, rfl, rfl, fun _ _ _ => rfl⟩
  have good : ∀ p ∈ arcs, ArcOK 2 1 5 p := by
    intro p hp
    simp only [arcs, List.mem_cons, List.not_mem_nil, or_false] at hp
    rcases hp with rfl | rfl | rfl <;>
      exact ⟨by decide, by decide, by decide, by decide, by decide, by decide, fun x _ _ => le_rfl, fun x _ _ => by simp⟩
  have hpt : ∀ p ∈ arcs, p.l = p.u := by
    intro p hp
    simp only [arcs, List.mem_cons, List.not_mem_nil, or_false] at hp
    rcases hp with rfl | rfl | rfl <;> rfl
  refine ⟨limits, arcs, rep, good, fun p hp => by have := hpt p hp; omega, ?_, fun π => ?_⟩
  · refine returns_of (bits 5 + 1) (fun fuel hf => ?_) fun f f' hff => flowMinCost_le hff
    obtain ⟨s, e1, s', e2⟩ := minCost_zero (imax := 2 ^ 31 - 1) rep good hpt (by norm_num) (by norm_num) (by norm_num) (by norm_num) hf
    unfold flowMinCost
    rw [e1, ok_bind, e2, ok_bind]
    simp [arcs]
  · simp only [arcs, penalised, penal, List.map_cons, List.map_nil, List.sum_cons, List.sum_nil]
    have h : ∀ x : Int, (0 : ℚ) ≤ (if x < 0 then 0 + 1 * ((0 - x : Int) : ℚ) else if 0 < x then 0 + 1 * ((x - 0 : Int) : ℚ) else 0) ∧
        (x ≠ 0 → (0 : ℚ) < (if x < 0 then 0 + 1 * ((0 - x : Int) : ℚ) else if 0 < x then 0 + 1 * ((x - 0 : Int) : ℚ) else 0)) := by
      intro x
      rcases lt_trichotomy x 0 with hx | hx | hx
      · rw [if_pos hx]
        have : (x : ℚ) < 0 := by exact_mod_cast hx
        constructor <;> (try intro _) <;> push_cast <;> linarith
      · subst hx; simp
      · rw [if_neg (by omega), if_pos hx]
        have : (0 : ℚ) < x := by exact_mod_cast hx
        constructor <;> (try intro _) <;> push_cast <;> linarith
    have h5 : ∀ x : Int, (0 : ℚ) ≤ (if x < 5 then 0 + 1 * ((5 - x : Int) : ℚ) else if 5 < x then 0 + 1 * ((x - 5 : Int) : ℚ) else 0) ∧
        (x ≠ 5 → (0 : ℚ) < (if x < 5 then 0 + 1 * ((5 - x : Int) : ℚ) else if 5 < x then 0 + 1 * ((x - 5 : Int) : ℚ) else 0)) := by
      intro x
      rcases lt_trichotomy x 5 with hx | hx | hx
      · rw [if_pos hx]
        have : (x : ℚ) < 5 := by exact_mod_cast hx
        constructor <;> (try intro _) <;> push_cast <;> linarith
      · subst hx; simp
      · rw [if_neg (by omega), if_pos hx]
        have : (5 : ℚ) < x := by exact_mod_cast hx
        constructor <;> (try intro _) <;> push_cast <;> linarith
    have a1 := h (π 1 - π 0)
    have a2 := h (π 2 - π 0)
    have a3 := h5 (π 1 - π 2)
    by_cases b1 : π 1 - π 0 = 0
    · by_cases b2 : π 2 - π 0 = 0
      · have := a3.2 (by omega); linarith [a1.1, a2.1]
      · have := a2.2 b2; linarith [a1.1, a3.1]
    · have := a1.2 b1; linarith [a2.1, a3.1]

end AHO.Props
