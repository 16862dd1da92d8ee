import Verif.Proof.SimpleSolve
import Verif.Proof.SimpleMono
import Verif.Props.Oracle
/-!
# The second oracle of the tests

`SimpleSolver.solve` is `SimpleSolver::Solve`, `CostScaling.minCost` is `CostScaling::MinCost`, both in `test/`.
-/

namespace AHO.Props
open Spec

section
variable {K : Type} [Field K] [LinearOrder K] [IsStrictOrderedRing K] {imax : Int}

/-- C41. The ternary search finds the least value of a convex callback on `[l, r]`, and calls it in `[l, r]` only: nothing is assumed
about calls elsewhere. -/
theorem C41_ternary_search {f : Fn K} {g : Int → K} {l r : Int} (hlr : l ≤ r) (hl : -imax - 1 ≤ l) (hr : r ≤ imax) (hw : r - l ≤ imax)
    (hf : ∀ x, l ≤ x → x ≤ r → f x = .ok (g x)) (hc : Convex g l r) :
    ∃ m, Returns (fun fuel => SimpleSolver.ternary imax f fuel l r) m ∧ IsLeast {y | ∃ x, l ≤ x ∧ x ≤ r ∧ g x = y} m := by
  have key := fun fuel (h : r - l < ((fuel : Nat) : Int)) => SimpleSolver.ternary_spec (imax := imax) h hlr hl hr hw hf hc
  obtain ⟨m, -, hm⟩ := key ((r - l).toNat + 1) (by omega)
  refine ⟨m, returns_of ((r - l).toNat + 1) (fun fuel h => ?_) fun a b hab => SimpleSolver.ternary_le (fun _ => .refl _) hab _ _, hm.1, ?_⟩
  · obtain ⟨m', e, hm'⟩ := key fuel (by omega)
    rw [e, hm.unique hm']
  · rintro y ⟨x, x1, x2, rfl⟩
    exact hm.2 x x1 x2

/-- C41. The function `E` made from a convex cost returns, for every `x` up to the end of the range, the least cost from `x` on. -/
theorem C41_suffix_minimum {e : OmegaLimit K} {p : Pair K} (he : e.Is p) (hle : p.l ≤ p.u) (hl : -imax - 1 ≤ p.l) (hu : p.u ≤ imax)
    (hw : p.u - p.l ≤ imax) (hc : Convex p.B p.l p.u) {x : Int} (hx : x ≤ p.u) :
    ∃ m, Returns (fun fuel => SimpleSolver.suffixMin imax fuel e x) m ∧ IsLeast {y | ∃ w, p.l ≤ w ∧ x ≤ w ∧ w ≤ p.u ∧ p.B w = y} m := by
  obtain ⟨m, h1, h2⟩ := C41_ternary_search (imax := imax) (f := e.fn) (g := p.B) (l := max e.l x) (r := e.u) (by rw [he.l, he.u]; omega)
    (by rw [he.l]; omega) (by rw [he.u]; exact hu) (by rw [he.l, he.u]; omega)
    (fun w a b => he.fn w (by rw [he.l] at a; omega) (by rw [he.u] at b; exact b))
    (fun w a b => hc w (by rw [he.l] at a; omega) (by rw [he.u] at b; exact b))
  refine ⟨m, h1, ?_⟩
  convert h2 using 3
  rw [he.l, he.u]
  constructor
  · rintro ⟨w, a, b, c, d⟩; exact ⟨w, by omega, c, d⟩
  · rintro ⟨w, a, b, c⟩; exact ⟨w, by omega, by omega, b, c⟩

end

/-- The hypotheses are met by `(x - 3)²` on `[-5, 9]`; the callback refuses other arguments, and the search returns 0. -/
example : (∀ x : Int, -5 ≤ x → x ≤ 9 → (fun x => if -5 ≤ x ∧ x ≤ 9 then .ok (((x : ℚ) - 3) ^ 2) else .error .callback : Fn ℚ) x = .ok (((x : ℚ) - 3) ^ 2)) ∧
    Convex (fun x : Int => ((x : ℚ) - 3) ^ 2) (-5) 9 ∧
    SimpleSolver.ternary (2 ^ 31 - 1) (fun x => if -5 ≤ x ∧ x ≤ 9 then .ok (((x : ℚ) - 3) ^ 2) else .error .callback) 20 (-5) 9 = .ok 0 := by
  refine ⟨fun x h1 h2 => by simp [h1, h2], fun x _ _ => ?_, by decide +kernel⟩
  push_cast
  nlinarith

/-- The suffix minimum of `3 x²` on `[0, 5]` from -7 on is 0, from 2 on it is 12. -/
example : ∃ e ∈ exOmegas, ∃ p ∈ exP.pairs, e.Is p ∧ Convex p.B p.l p.u ∧ p.l = 0 ∧ p.u = 5 ∧
    SimpleSolver.suffixMin (2 ^ 31 - 1) 20 e (-7) = .ok 0 ∧ SimpleSolver.suffixMin (2 ^ 31 - 1) 20 e 2 = .ok 12 := by
  refine ⟨exOmegas[1], by simp [exOmegas], exP.pairs[1]'(by simp [exP]), by simp, ?_, ex_cv.pairs _ (by simp), rfl, rfl, by decide +kernel, by decide +kernel⟩
  have := ex_rep.omegas
  exact (List.forall₂_iff_get.1 this).2 1 (by simp [exOmegas]) (by simp [exP])

/-- C41. Convexity is needed: if the cost is -5 at 9 and 1 elsewhere on `[0, 9]`, the search returns 1. -/
theorem C41_ternary_needs_convexity : ∃ f : Int → ℚ, f 9 = -5 ∧
    Returns (fun fuel => SimpleSolver.ternary (2 ^ 31 - 1) (fun x => .ok (f x)) fuel 0 9) 1 :=
  ⟨fun x => if x = 9 then -5 else 1, by norm_num,
    returns_of_eval 20 (by decide +kernel) fun _ _ hab => SimpleSolver.ternary_le (fun _ => .refl _) hab _ _⟩

/-- C41. The length of the range must be representable in `int`: a constant cost on all of `int` makes `r - l` overflow. -/
theorem C41_range_overflow : ∀ fuel, 1 ≤ fuel →
    SimpleSolver.ternary (2 ^ 31 - 1) (fun _ => .ok (0 : ℚ)) fuel (-2 ^ 31) (2 ^ 31 - 1) = .error .overflow := by
  intro fuel h
  obtain ⟨k, rfl⟩ : ∃ k, fuel = k + 1 := ⟨fuel - 1, by omega⟩
  rfl

section
variable {K : Type} [Field K] [LinearOrder K] [IsStrictOrderedRing K] {imax : Int} {n : Nat} {arcs : List (InputEdge K)}

/-- The arguments of `MinCost` are those of a network: the ends are different nodes below `n`, the capacities are not negative, and
`int` can count the edges and hold the costs. -/
structure NetworkArgs (imax : Int) (n : Nat) (arcs : List (InputEdge K)) : Prop where
  u_lt : ∀ a ∈ arcs, a.u < n
  v_lt : ∀ a ∈ arcs, a.v < n
  ne : ∀ a ∈ arcs, a.u ≠ a.v
  nonneg : ∀ a ∈ arcs, 0 ≤ a.capacity
  count : 2 * (arcs.length : Int) - 1 ≤ imax
  cost_lo : ∀ a ∈ arcs, -imax ≤ a.cost
  cost_hi : ∀ a ∈ arcs, a.cost ≤ imax

/-- C42. `Refine` turns a circulation which is optimal up to `epsilon` into one which is optimal up to `epsilon / 2`. It returns `true`, no
assertion fails, and every access is in bounds. -/
theorem C42_refine (h : NetworkArgs imax n arcs) {s0 s : CostScaling K} (h0 : CostScaling.init imax n arcs = .ok s0) {f p : Nat → K}
    (hs : CostScaling.Holds arcs s0 f p s) (hcirc : Circulation (arcs.map InputEdge.arc) f) (hpos : 0 < s.epsilon)
    (hopt : FlowEpsOptimal (arcs.map InputEdge.arc) f p s.epsilon) :
    ∃ s' f' p', Returns (fun fuel => CostScaling.refine fuel s) (s', true) ∧ CostScaling.Holds arcs s0 f' p' s' ∧
      Circulation (arcs.map InputEdge.arc) f' ∧ s'.epsilon = s.epsilon ∧ FlowEpsOptimal (arcs.map InputEdge.arc) f' p' (s.epsilon / 2) := by
  obtain ⟨s', f', p', e, r⟩ := CS.refine_flow h.u_lt h.v_lt h.ne h.count (fun a ha => by have := h.cost_lo a ha; omega)
    (fun a ha => by have := h.cost_hi a ha; omega) h0 hs hcirc hpos hopt le_rfl
  exact ⟨s', f', p', returns_of_eval _ e fun _ _ hab => CostScaling.refine_le hab s, r⟩

/-- C43. `MinCost` returns `true` and minus the least cost of a circulation. By duality that is the least slack of integral potentials, which
is what `SimpleSolver` needs. -/
theorem C43_min_cost (h : NetworkArgs imax n arcs)
    (heps : ∀ a ∈ arcs, a.capacity = 0 ∨ -1 ≤ a.cost ∨ ∃ b ∈ arcs, -a.cost ≤ b.cost) :
    ∃ R, Returns (fun fuel => CostScaling.minCost imax fuel n arcs) (true, R) ∧
      IsLeast {c | ∃ f, Circulation (arcs.map InputEdge.arc) f ∧ flowCost (arcs.map InputEdge.arc) f = c} (-R) ∧
      IsLeast {c | ∃ π, slackCost (arcs.map InputEdge.arc) π = c} R := by
  obtain ⟨R, f, π, e, h1, h2, h3⟩ := CS.minCost_spec (imax := imax) (n := n) (arcs := arcs) h.u_lt h.v_lt h.ne h.nonneg
    (fun a ha => (heps a ha).imp id (Or.imp (fun h => by omega) id)) h.count (fun a ha => by have := h.cost_lo a ha; omega)
    (fun a ha => by have := h.cost_hi a ha; omega) le_rfl
  refine ⟨R, returns_of_eval _ e fun _ _ hab => CostScaling.minCost_le hab n arcs, ⟨⟨f, h1, h2⟩, ?_⟩, ⟨⟨π, h3⟩, ?_⟩⟩
  · rintro c ⟨f', g1, rfl⟩
    have := CS.weak_duality g1 π
    rw [h3] at this
    linarith
  · rintro c ⟨π', rfl⟩
    have := CS.weak_duality h1 π'
    rw [h2] at this
    linarith

end

/-- Four arcs between three nodes; one of them has a negative cost. -/
def exEdges : List (InputEdge ℚ) := [⟨0, 1, -2, 3⟩, ⟨1, 2, 1, 5⟩, ⟨2, 0, -1, 2⟩, ⟨1, 0, 3, 1 / 2⟩]

theorem exEdges_ok : NetworkArgs (2 ^ 31 - 1) 3 exEdges := by
  constructor <;> simp [exEdges]

/-- The hypotheses of C43 are met; the best circulation costs -4. -/
example : NetworkArgs (2 ^ 31 - 1) 3 exEdges ∧ (∀ a ∈ exEdges, a.capacity = 0 ∨ -1 ≤ a.cost ∨ ∃ b ∈ exEdges, -a.cost ≤ b.cost) ∧
    CostScaling.minCost (2 ^ 31 - 1) 200 3 exEdges = .ok (true, 4) := by
  refine ⟨exEdges_ok, ?_, by decide +kernel⟩
  simp [exEdges]

/-- The hypotheses of C42 are met by the object after `Init`: no flow, potentials zero, `epsilon` 3. -/
example : ∃ s0, CostScaling.init (2 ^ 31 - 1) 3 exEdges = .ok s0 ∧ CostScaling.Holds exEdges s0 (fun _ => 0) (fun _ => 0) s0 ∧
    Circulation (exEdges.map InputEdge.arc) (fun _ => 0) ∧ 0 < s0.epsilon ∧
    FlowEpsOptimal (exEdges.map InputEdge.arc) (fun _ => 0) (fun _ => 0) s0.epsilon := by
  obtain ⟨s0, e, S, p0, c0, z0, -⟩ := CS.init_spec (imax := 2 ^ 31 - 1) (n := 3) (arcs := exEdges) exEdges_ok.u_lt exEdges_ok.v_lt exEdges_ok.count
    (fun a ha => by have := exEdges_ok.cost_lo a ha; omega) (fun a ha => by have := exEdges_ok.cost_hi a ha; omega)
  have hN : s0.N = 3 := S.N
  have hlen : exEdges.length = 4 := rfl
  refine ⟨s0, e, ⟨rfl, rfl, fun _ _ => rfl, rfl, rfl, fun v hv => z0 v (by omega), rfl, fun _ _ => rfl, fun _ _ => rfl, fun _ _ => rfl,
    fun k hk => ?_, fun k hk => ?_⟩, ⟨fun _ => le_rfl, fun k => ?_, fun v => by simp⟩, ?_, fun k => ⟨fun _ => ?_, fun h => absurd h (lt_irrefl _)⟩⟩
  · have := c0 (2 * k) (by omega)
    rw [CS.capOf_even, CS.arcOf_lt hk] at this
    rw [sub_zero]; exact this
  · have := c0 (2 * k + 1) (by omega)
    rw [CS.capOf_odd] at this
    exact this
  · have : ∀ a ∈ exEdges.map InputEdge.arc, (0 : ℚ) ≤ a.capacity := by simp [exEdges, InputEdge.arc]
    exact this _ (List.getElem_mem _)
  · rw [p0]; decide +kernel
  · rw [p0]
    have h3 : ((CS.eps0 exEdges : Int) : ℚ) = 3 := by decide +kernel
    rw [h3]
    have : ∀ a ∈ exEdges.map InputEdge.arc, (0 : ℚ) - 0 - a.cost ≤ 3 := by simp [exEdges, InputEdge.arc]; norm_num
    exact this _ (List.getElem_mem _)

/-- C43. The hypothesis on negative costs is needed: `Init` takes `epsilon` from the largest cost instead of the largest absolute value. With
one arc of cost -100 the best circulation is zero, but `MinCost` returns `false`. -/
theorem C43_min_cost_fails : NetworkArgs (2 ^ 31 - 1) 2 [(⟨0, 1, -100, 1⟩ : InputEdge ℚ)] ∧
    Returns (fun fuel => CostScaling.minCost (2 ^ 31 - 1) fuel 2 [(⟨0, 1, -100, 1⟩ : InputEdge ℚ)]) (false, 0) :=
  ⟨by constructor <;> simp, returns_of_eval 100 (by decide +kernel) fun _ _ hab => CostScaling.minCost_le hab _ _⟩

/-- C43. It may then miss a circulation of negative cost: here the arcs between the nodes 0 and 2 make a cycle of cost -4. -/
theorem C43_min_cost_misses : ∃ arcs : List (InputEdge ℚ), NetworkArgs (2 ^ 31 - 1) 3 arcs ∧
    Returns (fun fuel => CostScaling.minCost (2 ^ 31 - 1) fuel 3 arcs) (false, 0) ∧
    ∃ f, Circulation (arcs.map InputEdge.arc) f ∧ flowCost (arcs.map InputEdge.arc) f = -4 := by
  refine ⟨[⟨0, 1, -100, 1⟩, ⟨0, 2, -2, 1⟩, ⟨2, 0, -2, 1⟩], by constructor <;> simp,
    returns_of_eval 100 (by decide +kernel) fun _ _ hab => CostScaling.minCost_le hab _ _,
    fun k => if k = 0 then 0 else 1, ⟨fun k => ?_, fun k => ?_, fun v => ?_⟩, ?_⟩
  · split <;> norm_num
  · have : ∀ a ∈ ([⟨0, 1, -100, 1⟩, ⟨0, 2, -2, 1⟩, ⟨2, 0, -2, 1⟩] : List (InputEdge ℚ)).map InputEdge.arc, (1 : ℚ) ≤ a.capacity := by
      simp [InputEdge.arc]
    refine le_trans ?_ (this _ (List.getElem_mem k.2))
    split <;> norm_num
  · refine (Fin.sum_univ_three _).trans (Eq.trans ?_ (Fin.sum_univ_three _).symm)
    simp [InputEdge.arc, add_comm]
  · refine (Fin.sum_univ_three _).trans ?_
    simp [InputEdge.arc]
    norm_num

section
variable {K : Type} [Field K] [LinearOrder K] [IsStrictOrderedRing K]
variable {P : Problem K} {Mus : List (MuLimit K)} {Omegas : List (OmegaLimit K)} {imax R : Int}

/-- `int` is large enough for `SimpleSolver`, all ranges being within `R` of zero. -/
structure SimpleCapacity (imax : Int) (P : Problem K) (R : Int) : Prop where
  within : Within P R
  lo : ∀ p ∈ P.pairs, -R ≤ p.l
  R_nonneg : 0 ≤ R
  range : 2 * R + 1 ≤ imax
  nodes : (P.n : Int) + 1 ≤ imax
  edges : 4 * (2 * R + 1) * ((P.n : Int) + P.pairs.length) ≤ imax

theorem simple_outcome (rep : Represents P Mus Omegas) (wf : WellFormed P) (cv : ConvexCosts P) (cap : SimpleCapacity imax P R)
    (sp : Spread P (10 ^ 9)) :
    ∃ r, Outcome (ProblemSolver.problemCosts P) r ∧ Returns (fun fuel => SimpleSolver.solve imax fuel P.n Mus Omegas) r := by
  have sp' : Spread P (SimpleSolver.bigM : K) := by
    have : (SimpleSolver.bigM : K) = 10 ^ 9 := by unfold SimpleSolver.bigM; norm_num
    rw [this]; exact sp
  obtain ⟨r, e, h⟩ := SimpleSolver.solve_spec rep wf cv cap.within cap.lo sp' cap.R_nonneg cap.range cap.nodes cap.edges le_rfl
  exact ⟨r, h, returns_of_eval _ e fun _ _ hab => SimpleSolver.solve_le hab _ _ _⟩

/-- C44. If the costs of any two assignments differ by less than `10^9`, `simple_solve` finishes without undefined behaviour or failed
assertion and returns the optimum, or nothing if there is no solution. -/
theorem C44_simple_correct (rep : Represents P Mus Omegas) (wf : WellFormed P) (cv : ConvexCosts P) (cap : SimpleCapacity imax P R)
    (sp : Spread P (10 ^ 9)) :
    ∃ r, Returns (fun fuel => SimpleSolver.solve imax fuel P.n Mus Omegas) r ∧ (∀ v, r = some v ↔ IsOptimum P v) ∧ (r = none ↔ ¬ Solvable P) := by
  obtain ⟨r, h1, h2⟩ := simple_outcome rep wf cv cap sp
  exact ⟨r, h2, outcome_some h1, outcome_none h1⟩

/-- C44. The solver and both oracles of the tests return the same. -/
theorem C44_three_agree (rep : Represents P Mus Omegas) (wf : WellFormed P) (cv : ConvexCosts P) (cap : SimpleCapacity imax P R)
    (sp : Spread P (10 ^ 9)) (hn : P.n + 1 < 2 ^ 64) (cap' : Capacity imax P) :
    ∃ r, Returns (fun fuel => ProblemSolver.run imax fuel P.n Mus Omegas) r ∧ Returns (fun fuel => Oracle.bfSolve imax fuel P.n Mus Omegas) r ∧
      Returns (fun fuel => SimpleSolver.solve imax fuel P.n Mus Omegas) r := by
  obtain ⟨r, h1, h2⟩ := ProblemSolver.run_capacity rep wf cv hn cap'
  obtain ⟨r1, h3, h4⟩ := oracle_outcome rep wf (fun p hp => (cv.pairs p hp).valley) cap'.1 cap.within cap.R_nonneg cap.range
  obtain ⟨r2, h5, h6⟩ := simple_outcome rep wf cv cap sp
  rw [← outcome_unique h1 h3] at h4
  rw [← outcome_unique h1 h5] at h6
  exact ⟨r, h2, h4, h6⟩

end

theorem ex_simpleCapacity : SimpleCapacity (2 ^ 31 - 1) exP 6 := by
  refine ⟨ex_within, ?_, by norm_num, by norm_num, ?_, ?_⟩ <;> simp [exP]

theorem ex_spread : Spread exP (10 ^ 9) := by
  have key : ∀ μ ω, InRanges exP μ ω → -8 ≤ cost exP μ ω ∧ cost exP μ ω ≤ 100 := by
    intro μ ω h
    have h1 := h.1 1 le_rfl (by simp [exP])
    have h2 := h.1 2 (by norm_num) (by simp [exP])
    have h3 := h.2 0 (by simp [exP])
    have h4 := h.2 1 (by simp [exP])
    simp only [exP] at h1 h2 h3 h4
    norm_num at h1 h2 h3 h4
    have e : cost exP μ ω = ((μ 1 : ℚ) - 1) ^ 2 + ((μ 2 : ℚ) - 2) ^ 2 + (2 * (ω 0 : ℚ) + 3 * (ω 1 : ℚ) ^ 2) := by
      simp only [cost, exP]
      rw [show Finset.Icc 1 2 = {1, 2} by decide]
      congr 1
      · simp
      · refine (Fin.sum_univ_two _).trans ?_
        simp
    have q1 : (-2 : ℚ) ≤ μ 1 ∧ (μ 1 : ℚ) ≤ 3 := by exact_mod_cast h1
    have q2 : (0 : ℚ) ≤ μ 2 ∧ (μ 2 : ℚ) ≤ 4 := by exact_mod_cast h2
    have q3 : (-4 : ℚ) ≤ ω 0 ∧ (ω 0 : ℚ) ≤ -2 := by exact_mod_cast h3
    have q4 : (0 : ℚ) ≤ ω 1 ∧ (ω 1 : ℚ) ≤ 5 := by exact_mod_cast h4
    rw [e]
    constructor <;> nlinarith
  intro μ ω μ' ω' h h'
  have := key μ ω h
  have := key μ' ω' h'
  linarith

/-- `C44_simple_correct` for the example. -/
example := C44_simple_correct ex_rep ex_wf ex_cv ex_simpleCapacity ex_spread

/-- The hypotheses of C44 are met, and `simple_solve` finds 9, as the others do. -/
example : Represents exP exMus exOmegas ∧ WellFormed exP ∧ ConvexCosts exP ∧ SimpleCapacity (2 ^ 31 - 1) exP 6 ∧ Spread exP (10 ^ 9) ∧
    exP.n + 1 < 2 ^ 64 ∧ Capacity (2 ^ 31 - 1) exP ∧ SimpleSolver.solve (2 ^ 31 - 1) 300 exP.n exMus exOmegas = .ok (some 9) :=
  ⟨ex_rep, ex_wf, ex_cv, ex_simpleCapacity, ex_spread, ex_n, ex_capacity, by decide +kernel⟩

/-- Costs beyond the `10^9` of `SimpleSolver`, though no slope exceeds it: `-6·10^8 μ₂ + 6·10^8 ω₁`. -/
def bigP : Problem ℚ where
  n := 2
  lo _ := 0
  hi i := if i = 1 then 0 else 3
  F i x := if i = 1 then 0 else -600000000 * (x : ℚ)
  pairs := [⟨1, 2, -3, 0, fun x => 600000000 * (x : ℚ)⟩, ⟨2, 1, 0, 0, fun _ => 0⟩]

def bigMus : List (MuLimit ℚ) := [⟨0, 0, fun _ => .ok 0⟩, ⟨0, 0, fun _ => .ok 0⟩, ⟨0, 3, fun x => .ok (-600000000 * (x : ℚ))⟩]

def bigOmegas : List (OmegaLimit ℚ) := [⟨⟨-3, 0, fun x => .ok (600000000 * (x : ℚ))⟩, 1, 2⟩, ⟨⟨0, 0, fun _ => .ok 0⟩, 2, 1⟩]

theorem big_rep : Represents bigP bigMus bigOmegas := by
  refine ⟨rfl, ?_, ?_⟩
  · intro i h h1
    have h3 : i < 3 := h
    interval_cases i <;> exact ⟨rfl, rfl, fun x a b => by simp [bigMus, bigP]⟩
  · exact .cons ⟨rfl, rfl, rfl, rfl, fun x a b => rfl⟩ (.cons ⟨rfl, rfl, rfl, rfl, fun x a b => rfl⟩ .nil)

theorem big_wf : WellFormed bigP := by
  constructor <;> simp [bigP]
  intro i h1 h2
  interval_cases i <;> simp

theorem big_cv : ConvexCosts bigP := by
  constructor
  · intro i _ _ x _ _
    simp only [bigP]
    split
    · simp
    · push_cast; linarith
  · intro p hp x _ _
    simp only [bigP, List.mem_cons, List.not_mem_nil, or_false] at hp
    rcases hp with rfl | rfl
    · push_cast; linarith
    · simp

theorem big_within : Within bigP 3 := by
  constructor
  · intro i h1 h2
    simp [bigP]
  · intro i h1 h2
    simp only [bigP]
    split <;> norm_num
  · simp [bigP]
  · simp [bigP]

/-- C45. Without the bound `10^9` on the costs `simple_solve` is wrong: the optimum is 0, it returns `-6·10^8`. -/
theorem C45_simple_wrong_value : Represents bigP bigMus bigOmegas ∧ WellFormed bigP ∧ ConvexCosts bigP ∧ SimpleCapacity (2 ^ 31 - 1) bigP 3 ∧
    IsOptimum bigP 0 ∧ Returns (fun fuel => SimpleSolver.solve (2 ^ 31 - 1) fuel bigP.n bigMus bigOmegas) (some (-600000000)) := by
  refine ⟨big_rep, big_wf, big_cv, ?_, ?_, returns_of_eval 300 (by decide +kernel) fun _ _ hab => SimpleSolver.solve_le hab _ _ _⟩
  · refine ⟨big_within, ?_, by norm_num, by norm_num, ?_, ?_⟩ <;> simp [bigP]
  · obtain ⟨r, h1, h2, -⟩ := C31_oracle_correct (imax := 2 ^ 31 - 1) big_rep big_wf (fun p hp => (big_cv.pairs p hp).valley) (by constructor <;> simp [bigP]) big_within
      (by norm_num) (by norm_num)
    refine (h2 0).1 ?_
    have e : Oracle.bfSolve (2 ^ 31 - 1) 30 bigP.n bigMus bigOmegas = .ok (some 0) := by decide +kernel
    exact (h1.unique (returns_of_eval 30 e fun _ _ hab => Oracle.bfSolve_le hab _ _ _))

/-- No solution, and costs beyond `10^9`. -/
def infP : Problem ℚ where
  n := 2
  lo _ := 0
  hi _ := 10
  F i x := if i = 1 then 400000000 * (x : ℚ) else 0
  pairs := [⟨1, 2, -12, -11, fun _ => 0⟩]

def infMus : List (MuLimit ℚ) := [⟨0, 0, fun _ => .ok 0⟩, ⟨0, 10, fun x => .ok (400000000 * (x : ℚ))⟩, ⟨0, 10, fun _ => .ok 0⟩]

def infOmegas : List (OmegaLimit ℚ) := [⟨⟨-12, -11, fun _ => .ok 0⟩, 1, 2⟩]

theorem inf_rep : Represents infP infMus infOmegas := by
  refine ⟨rfl, ?_, ?_⟩
  · intro i h h1
    have h3 : i < 3 := h
    interval_cases i <;> exact ⟨rfl, rfl, fun x a b => by simp [infMus, infP]⟩
  · exact .cons ⟨rfl, rfl, rfl, rfl, fun x a b => rfl⟩ .nil

theorem inf_unsolvable : ¬ Solvable infP := by
  rintro ⟨μ, ω, h1, h2⟩
  have a := h1 1 le_rfl (by simp [infP])
  have b := h1 2 (by norm_num) (by simp [infP])
  have c := h2 0 (by simp [infP])
  simp [infP] at a b c
  omega

/-- C45. Nor does `simple_solve` then recognise that there is no solution: the penalty of `10^9` for each unit is less than the largest cost. -/
theorem C45_simple_wrong_solvable : Represents infP infMus infOmegas ∧ WellFormed infP ∧ ConvexCosts infP ∧
    SimpleCapacity (2 ^ 31 - 1) infP 12 ∧ ¬ Solvable infP ∧
    Returns (fun fuel => SimpleSolver.solve (2 ^ 31 - 1) fuel infP.n infMus infOmegas) (some 1000000000) := by
  refine ⟨inf_rep, ?_, ⟨?_, ?_⟩, ⟨⟨?_, ?_, ?_, ?_⟩, ?_, by norm_num, by norm_num, ?_, ?_⟩, inf_unsolvable,
    returns_of_eval 1000 (by decide +kernel) fun _ _ hab => SimpleSolver.solve_le hab _ _ _⟩
  · constructor <;> simp [infP]
  · intro i _ _ x _ _
    simp only [infP]
    split
    · push_cast; linarith
    · simp
  · intro p hp x _ _
    simp only [infP, List.mem_cons, List.not_mem_nil, or_false] at hp
    subst hp
    simp
  all_goals simp [infP]

/-- One node with range `[1, 2]`, and a pair of the node with itself; all costs are zero. -/
def selfP : Problem ℚ where
  n := 1
  lo _ := 1
  hi _ := 2
  F _ _ := 0
  pairs := [⟨1, 1, 0, 0, fun _ => 0⟩]

def selfMus : List (MuLimit ℚ) := [⟨0, 0, fun _ => .ok 0⟩, ⟨1, 2, fun _ => .ok 0⟩]

def selfOmegas : List (OmegaLimit ℚ) := [⟨⟨0, 0, fun _ => .ok 0⟩, 1, 1⟩]

theorem self_rep : Represents selfP selfMus selfOmegas := by
  refine ⟨rfl, ?_, ?_⟩
  · intro i h h1
    have h3 : i < 2 := h
    interval_cases i
    exact ⟨rfl, rfl, fun x a b => by simp [selfMus, selfP]⟩
  · exact .cons ⟨rfl, rfl, rfl, rfl, fun x a b => rfl⟩ .nil

theorem self_optimum : IsOptimum selfP 0 := by
  have hc : ∀ μ ω, cost selfP μ ω = 0 := by
    intro μ ω
    simp only [cost, selfP]
    rw [Finset.sum_const_zero, zero_add]
    refine (Fin.sum_univ_one _).trans ?_
    simp
  refine ⟨⟨fun _ => 1, fun _ => 0, ⟨fun i _ _ => by simp [selfP], fun k hk => ?_⟩, hc _ _⟩, fun μ ω _ => by rw [hc]⟩
  obtain rfl : k = 0 := by simp [selfP] at hk; exact hk
  simp [selfP]

/-- C46. The three programs of the tests disagree on a pair of a node with itself: the optimum is 0, which `bf_solve` returns; the solver
returns nothing; in `simple_solve` an assertion fails, because a node sends flow to itself and is pushed to the stack twice. -/
theorem C46_self_pair : Represents selfP selfMus selfOmegas ∧ IsOptimum selfP 0 ∧
    Returns (fun fuel => Oracle.bfSolve (2 ^ 31 - 1) fuel selfP.n selfMus selfOmegas) (some 0) ∧
    Returns (fun fuel => ProblemSolver.run (2 ^ 31 - 1) fuel selfP.n selfMus selfOmegas) none ∧
    ∀ fuel, 100 ≤ fuel → SimpleSolver.solve (2 ^ 31 - 1) fuel selfP.n selfMus selfOmegas = .error .assertFail := by
  refine ⟨self_rep, self_optimum, returns_of_eval 30 (by decide +kernel) fun _ _ hab => Oracle.bfSolve_le hab _ _ _,
    returns_of_eval 30 (by decide +kernel) fun _ _ hab => ProblemSolver.run_le hab _ _ _, fun fuel h => ?_⟩
  have e : SimpleSolver.solve (2 ^ 31 - 1) 100 selfP.n selfMus selfOmegas = .error .assertFail := by decide +kernel
  rcases SimpleSolver.solve_le h selfP.n selfMus selfOmegas with h' | h'
  · rw [e] at h'; cases h'
  · rw [← h', e]

end AHO.Props
