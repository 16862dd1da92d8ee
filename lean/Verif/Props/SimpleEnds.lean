import Verif.Proof.SimpleEnds
import Verif.Props.SimpleTime
import Verif.Props.Reference
import Verif.Props.ReferenceDouble
/-!
# C73: the second oracle ends also if its arithmetic is rounded

With rounded arithmetic the solver may go on for ever (C38). The second reference program of the tests may return a wrong value (C69), but it always
returns: its potentials are small multiples of a power of two, which `double` adds exactly, and `Refine` gives up when a node has been relabelled more than
`6 n` times (`test/CostScaling.cpp:74-76`).
-/

namespace AHO.Props
open Spec Format
set_option linter.unusedSectionVars false

section
variable {K : Type} [Field K] [LinearOrder K] [IsStrictOrderedRing K] {ρ : Rounding K} {imax R : Int}

/-- C73. `MinCost` on `n` nodes and arcs with costs up to `R` ends, whatever the capacities are and however the results of operations on them are rounded.
It calls `Refine` at most `J` times, where `R n < 2 ^ J`, and takes `O(n² (a + n) J)` rounds for `a` arcs. What is assumed of the arithmetic is that
the multiples of `2 ^ (-J)` up to `(12 n + 3) R` are not changed by rounding. -/
theorem C73_min_cost_ends {n : Nat} {arcs : List (InputEdge (Rd ρ))} (hn : 0 < n)
    (ha : ∀ a ∈ arcs, a.u < n ∧ a.v < n ∧ a.u ≠ a.v ∧ 0 ≤ a.capacity.val ∧ |a.cost| ≤ R)
    (hR : 1 ≤ R) (hRi : R ≤ imax) (hi : 2 * (arcs.length : Int) - 1 ≤ imax) {J : Nat} (hJ : R * n < 2 ^ J)
    (hex : ∀ z : Int, |z| ≤ (12 * n + 3) * R * 2 ^ J → ρ.rnd ((z : K) / 2 ^ J) = z / 2 ^ J) :
    ∃ N, ∀ fuel, N ≤ fuel → ∃ c b v, CostScaling.minCostC imax fuel n arcs = .ok (c, b, v) ∧
      CostScaling.minCost imax fuel n arcs = .ok (b, v) ∧
      c.phases ≤ J ∧
      c.relabels ≤ J * (n * (6 * n + 1)) ∧
      c.rounds ≤ J * ((6 * n + 1) * (2 * arcs.length + n) * n + n * n + 1) ∧
      c.scans ≤ J * ((6 * n + 3) * (2 * arcs.length) + ((6 * n + 1) * (2 * arcs.length + n) * n + n * n + 1)) := by
  have hT0 : (0 : Int) < 2 ^ J := pow_pos (by norm_num) _
  have A := Rd.gridArith ρ (C := 2 ^ J) (B := (12 * n + 3) * R * 2 ^ J) hT0 (by push_cast; exact hex)
  have hone : (1 : Rd ρ) = Rd.of ρ ((((2 ^ J : Int)) : K) / ((2 ^ J : Int) : K)) := by
    rw [div_self (by exact_mod_cast hT0.ne')]
    rfl
  refine ⟨CS.minFuelR n (2 * arcs.length) J, fun fuel hf => ?_⟩
  obtain ⟨c, b, v, e, w⟩ := CS.minCost_ends (imax := imax) (n := n) (arcs := arcs) (fuel := fuel) hR A hone hn le_rfl hJ
    (fun a h => ⟨(ha a h).1, (ha a h).2.1, (ha a h).2.2.1, (ha a h).2.2.2.1⟩) hi (fun a h => (ha a h).2.2.2.2) hRi hf
  exact ⟨c, b, v, e, (CostScaling.minCostC_er _ _ _ _).to_ok e, w.phases, w.relabels, w.rounds, w.scans⟩

variable {P : Problem K} {Mus : List (MuLimit (Rd ρ))} {Omegas : List (OmegaLimit (Rd ρ))}

/-- C73. If the rounded costs are convex with slopes up to the constant `10 ^ 9` of the program, and `int` is large enough, `simple_solve` returns, however the
results of operations on capacities are rounded: it neither goes on for ever nor fails an assertion nor has undefined behaviour. The numbers of evaluations
and of steps of `MinCost` are bounded as in C72, up to constants. -/
theorem C73_simple_ends (hM : ρ.rnd (10 ^ 9) = 10 ^ 9) (rep : Represents (P.mapCosts (Rd.of ρ)) Mus Omegas) (wf : WellFormed P)
    (cv : ConvexCosts (P.mapCosts ρ.rnd))
    (hsn : ∀ i, 1 ≤ i → i ≤ P.n → ∀ x, P.lo i ≤ x → x + 1 ≤ P.hi i → |ρ.rnd (P.F i (x + 1)) - ρ.rnd (P.F i x)| ≤ 10 ^ 9)
    (hsp : ∀ p ∈ P.pairs, ∀ x, p.l ≤ x → x + 1 ≤ p.u → |ρ.rnd (p.B (x + 1)) - ρ.rnd (p.B x)| ≤ 10 ^ 9)
    (cap : SimpleCapacity imax P R) (hR : 1 ≤ R) {J : Nat} (hJ : R * ((P.n : Int) + 1) < 2 ^ J)
    (hex : ∀ z : Int, |z| ≤ (12 * ((P.n : Int) + 1) + 3) * R * 2 ^ J → ρ.rnd ((z : K) / 2 ^ J) = z / 2 ^ J)
    {A q : Nat} (hA : (A : Int) = 2 * (2 * R + 1) * (P.n + P.pairs.length)) (hq : q = 4 * (2 * R).toNat.size + 2) :
    (∃ r, Returns (fun fuel => SimpleSolver.solve imax fuel P.n Mus Omegas) r) ∧
    ∃ N, ∀ fuel, N ≤ fuel → ∃ w r, SimpleSolver.solveC imax fuel P.n Mus Omegas = .ok (w, r) ∧
      w.evals ≤ P.n * (4 * ((2 * R).toNat + 1) + 2 + q) + P.pairs.length * (4 * ((2 * R).toNat + 1) * q + 2 + q ^ 2) ∧
      w.flow.phases ≤ J ∧
      w.flow.relabels ≤ J * ((P.n + 1) * (6 * (P.n + 1) + 1)) ∧
      w.flow.rounds ≤ J * ((6 * (P.n + 1) + 1) * (2 * A + (P.n + 1)) * (P.n + 1) + (P.n + 1) * (P.n + 1) + 1) := by
  have hb : (SimpleSolver.bigM : K) = 10 ^ 9 := by unfold SimpleSolver.bigM; norm_num
  have hpm : ∀ p ∈ (P.mapCosts (Rd.of ρ)).pairs, ∃ p' ∈ P.pairs, p = ⟨p'.i, p'.j, p'.l, p'.u, fun x => Rd.of ρ (p'.B x)⟩ := by
    intro p hp
    obtain ⟨p', h1, h2⟩ := List.mem_map.1 hp
    exact ⟨p', h1, h2.symm⟩
  have hlen : (P.mapCosts (Rd.of ρ)).pairs.length = P.pairs.length := List.length_map _
  have wf' : WellFormed (P.mapCosts (Rd.of ρ)) := by
    refine ⟨wf.nodes, ?_, ?_, ?_, ?_, ?_, ?_⟩ <;> intro p hp <;> obtain ⟨p', h1, rfl⟩ := hpm p hp
    · exact wf.i_pos p' h1
    · exact wf.i_le p' h1
    · exact wf.j_pos p' h1
    · exact wf.j_le p' h1
    · exact wf.ne p' h1
    · exact wf.le p' h1
  have wi : Within (P.mapCosts (Rd.of ρ)) R := by
    refine ⟨cap.within.lo, cap.within.hi, ?_, ?_⟩ <;> intro p hp <;> obtain ⟨p', h1, rfl⟩ := hpm p hp
    · exact cap.within.u p' h1
    · exact cap.within.diff p' h1
  have ends : ∀ fuel, SimpleSolver.solveFuelR P.n P.pairs.length R J ≤ fuel → _ := fun fuel hf =>
    SimpleSolver.solve_ends (imax := imax) (fuel := fuel) (R := R) (J := J) (by rw [hb, hM]) rep wf'
      (fun i h1 h2 => ⟨cv.nodes i h1 h2, by rw [hb]; exact hsn i h1 h2⟩)
      (fun p hp => by
        obtain ⟨p', h1, rfl⟩ := hpm p hp
        refine ⟨cv.pairs ⟨p'.i, p'.j, p'.l, p'.u, fun x => ρ.rnd (p'.B x)⟩ (List.mem_map.2 ⟨p', h1, rfl⟩), ?_⟩
        rw [hb]; exact hsp p' h1)
      wi (fun p hp => by obtain ⟨p', h1, rfl⟩ := hpm p hp; exact cap.lo p' h1) hR cap.range cap.nodes (by rw [hlen]; exact cap.edges) hJ hex (by rw [hlen]; exact hf)
  constructor
  · obtain ⟨_, _, _, _, r, -, -, -, -, -, e⟩ := ends _ le_rfl
    exact ⟨r, returns_of_eval _ e fun _ _ h => SimpleSolver.solve_le h _ _ _⟩
  refine ⟨SimpleSolver.solveFuelR P.n P.pairs.length R J, fun fuel hf => ?_⟩
  obtain ⟨s1, s2, c, x, r, e1, e2, e3, hw, hE, e⟩ := ends fuel hf
  have mus : ∀ (i : Nat) m, 1 ≤ i → Mus[i]? = some m → i ≤ P.n ∧ m.l = P.lo i ∧ m.u = P.hi i := by
    intro i m h1 hm
    obtain ⟨hi, rfl⟩ := List.getElem?_eq_some_iff.1 hm
    have h5 := rep.mus i hi h1
    exact ⟨by have h6 : Mus.length = P.n + 1 := rep.len; omega, h5.l, h5.u⟩
  obtain ⟨w, ew⟩ := (SimpleSolver.solveC_er imax fuel P.n Mus Omegas).of_ok e
  obtain ⟨g1, g2⟩ := SimpleSolver.solveC_count (W := (2 * R).toNat)
    (fun i hi h1 => by
      obtain ⟨a, b, c⟩ := mus i _ h1 (List.getElem?_eq_getElem hi)
      rw [b, c]
      have := cap.within.lo i h1 a
      have := cap.within.hi i h1 a
      omega)
    (by
      have key : ∀ {es : List (OmegaLimit (Rd ρ))} {ps : List (Pair (Rd ρ))}, List.Forall₂ OmegaLimit.Is es ps → ∀ e ∈ es, ∃ p ∈ ps, e.Is p := by
        intro es ps h
        induction h with
        | nil => intro e he; cases he
        | cons h1 _ ih =>
          intro e he
          rcases List.mem_cons.1 he with rfl | he
          · exact ⟨_, List.mem_cons_self, h1⟩
          · obtain ⟨p, hp, h⟩ := ih e he
            exact ⟨p, List.mem_cons_of_mem _ hp, h⟩
      intro e he
      obtain ⟨p, hp, h⟩ := key rep.omegas e he
      have a1 : -R ≤ p.l := by obtain ⟨p', h1, rfl⟩ := hpm p hp; exact cap.lo p' h1
      have a2 := wi.u p hp
      have a3 : -R ≤ P.lo p.i - P.hi p.j := wi.diff p hp
      refine ⟨by rw [h.l, h.u]; omega, fun mi mj hi hj => ?_⟩
      rw [h.i] at hi
      rw [h.j] at hj
      obtain ⟨-, b1, -⟩ := mus _ _ (wf'.i_pos p hp) hi
      obtain ⟨-, -, b2⟩ := mus _ _ (wf'.j_pos p hp) hj
      rw [h.u, b1, b2]
      omega) ew
  rw [rep.omegas.length_eq, hlen] at g1
  refine ⟨w, r, ew, by rw [hq]; exact g1, ?_⟩
  rcases g2 with g2 | ⟨t1, t2, y, f1, f2, f3⟩
  · rw [g2]
    exact ⟨Nat.zero_le _, Nat.zero_le _, Nat.zero_le _⟩
  · have f1 : SimpleSolver.nodes imax fuel Mus (P.mapCosts (Rd.of ρ)).n 1 ⟨[], [], 0⟩ = .ok (some t1) := f1
    rw [e1] at f1
    cases f1
    rw [e2] at f2
    cases f2
    have f3 : CostScaling.minCostC imax fuel ((P.mapCosts (Rd.of ρ)).n + 1) s2.edge = .ok (w.flow, y) := f3
    rw [e3] at f3
    cases f3
    rw [hlen] at hE
    have hE : (s2.edge.length : Int) ≤ 2 * (2 * R + 1) * ((P.n : Int) + P.pairs.length) := hE
    have hlen : s2.edge.length ≤ A := by omega
    have w1 := hw.relabels
    have w2 := hw.rounds
    unfold CS.refRoundsR at w2
    refine ⟨hw.phases, w1, w2.trans ?_⟩
    show J * ((6 * (P.n + 1) + 1) * (2 * s2.edge.length + (P.n + 1)) * (P.n + 1) + (P.n + 1) * (P.n + 1) + 1) ≤ _
    gcongr

end

/-! ## `double` -/

/-- The multiples of `2 ^ (-J)` up to `2 ^ (p - J)` are floating-point numbers. -/
theorem rounding_grid {f : Format} (hp : 2 ≤ f.p) {J : Nat} (hJ : f.emin ≤ -J) {B : Int} (hB : B < 2 ^ f.p) (z : Int) (hz : |z| ≤ B) :
    (rounding f hp).rnd ((z : ℚ) / 2 ^ J) = z / 2 ^ J := by
  show f.round _ = _
  refine round_float ⟨z, -J, ?_, by omega, hJ⟩
  rw [zpow_neg, zpow_natCast, div_eq_mul_inv]

/-- Three arcs of capacities 0.1, 0.7 and 1/3, rounded to `double`, meet the hypotheses of `C73_min_cost_ends`. -/
example : ∃ N, ∀ fuel, N ≤ fuel → ∃ c b v, CostScaling.minCostC (2 ^ 31 - 1) fuel 3
    [(⟨0, 1, 2, Rd.of doubleRounding (1 / 10)⟩ : InputEdge (Rd doubleRounding)), ⟨1, 2, -1, Rd.of _ (7 / 10)⟩, ⟨2, 0, -2, Rd.of _ (1 / 3)⟩] = .ok (c, b, v) := by
  have hex := rounding_grid (f := binary64) (by decide) (J := 3) (by decide) (B := (12 * 3 + 3) * 2 * 2 ^ 3) (by decide)
  have ha : ∀ a ∈ [(⟨0, 1, 2, Rd.of doubleRounding (1 / 10)⟩ : InputEdge (Rd doubleRounding)), ⟨1, 2, -1, Rd.of _ (7 / 10)⟩, ⟨2, 0, -2, Rd.of _ (1 / 3)⟩],
      a.u < 3 ∧ a.v < 3 ∧ a.u ≠ a.v ∧ 0 ≤ a.capacity.val ∧ |a.cost| ≤ 2 := by
    intro a ha
    simp only [List.mem_cons, List.not_mem_nil, or_false] at ha
    rcases ha with rfl | rfl | rfl <;> exact ⟨by decide, by decide, by decide, by decide +kernel, by decide⟩
  obtain ⟨N, h⟩ := C73_min_cost_ends (imax := 2 ^ 31 - 1) (J := 3) (by decide) ha (by decide) (by decide) (by decide) (by decide) hex
  refine ⟨N, fun fuel hf => ?_⟩
  obtain ⟨c, b, v, e, -⟩ := h fuel hf
  exact ⟨c, b, v, e⟩

/-- C73 for `double`, without its largest number, and the `int` of the tests: if the values of the costs are convex numbers of type `double` with slopes up to `10 ^ 9`,
all ranges are within `R` of zero and `6 R (n + 1) < 2 ^ 26.5`, `simple_solve` returns. -/
theorem C73_double {P : Problem ℚ} {Mus : List (MuLimit (Rd doubleRounding))} {Omegas : List (OmegaLimit (Rd doubleRounding))} {imax : Int} {R : Nat}
    (rep : Represents (P.mapCosts (Rd.of doubleRounding)) Mus Omegas) (wf : WellFormed P) (cv : ConvexCosts (P.mapCosts doubleRounding.rnd))
    (hsn : ∀ i, 1 ≤ i → i ≤ P.n → ∀ x, P.lo i ≤ x → x + 1 ≤ P.hi i → |doubleRounding.rnd (P.F i (x + 1)) - doubleRounding.rnd (P.F i x)| ≤ 10 ^ 9)
    (hsp : ∀ p ∈ P.pairs, ∀ x, p.l ≤ x → x + 1 ≤ p.u → |doubleRounding.rnd (p.B (x + 1)) - doubleRounding.rnd (p.B x)| ≤ 10 ^ 9)
    (cap : SimpleCapacity imax P R) (hR1 : 1 ≤ R) (hp : 36 * (R * (P.n + 1)) ^ 2 < 2 ^ 53) :
    ∃ r, Returns (fun fuel => SimpleSolver.solve imax fuel P.n Mus Omegas) r := by
  set J := Nat.clog 2 (R * (P.n + 1) + 1) with hJ
  have hpos : 1 ≤ R * (P.n + 1) := Nat.mul_pos hR1 (Nat.succ_pos _)
  have hJ1 : R * (P.n + 1) < 2 ^ J := Nat.lt_of_succ_le (Nat.le_pow_clog (by norm_num) _)
  have hJ2 : 2 ^ J ≤ 2 * (R * (P.n + 1)) := by
    have hJpos : 0 < J := Nat.clog_pos (by norm_num) (by omega)
    have := Nat.pow_pred_clog_lt_self (b := 2) (by norm_num) (x := R * (P.n + 1) + 1) (by omega)
    rw [← hJ] at this
    have e : 2 ^ J = 2 * 2 ^ J.pred := by
      rw [← pow_succ']; congr 1; exact (Nat.succ_pred_eq_of_pos hJpos).symm
    omega
  have hJp : J < 53 := by
    refine (Nat.pow_lt_pow_iff_right (a := 2) (by norm_num)).1 (lt_of_le_of_lt hJ2 (lt_of_le_of_lt ?_ hp))
    nlinarith
  have hB : ((12 * ((P.n : Int) + 1) + 3) * R * 2 ^ J : Int) < 2 ^ 53 := by
    have h6 : (12 * (P.n + 1) + 3) * R ≤ 18 * (R * (P.n + 1)) := by nlinarith
    have h5 : (12 * (P.n + 1) + 3) * R * 2 ^ J < 2 ^ 53 := by
      refine lt_of_le_of_lt ?_ hp
      calc (12 * (P.n + 1) + 3) * R * 2 ^ J ≤ (18 * (R * (P.n + 1))) * (2 * (R * (P.n + 1))) := Nat.mul_le_mul h6 hJ2
        _ = _ := by ring
    exact_mod_cast h5
  have hJe : (-1074 : Int) ≤ -J := by omega
  refine (C73_simple_ends (R := R) (J := J) (A := 2 * (2 * R + 1) * (P.n + P.pairs.length)) (by decide +kernel) rep wf cv hsn hsp cap (by exact_mod_cast hR1)
    (by exact_mod_cast hJ1) (rounding_grid (f := binary64) (by decide) hJe hB) (by push_cast; ring) rfl).1

/-- the limits of `forcedP tenth (-1)` with rounded numbers -/
def tenthMusR : List (MuLimit (Rd doubleRounding)) :=
  [⟨0, 0, fun _ => .error .callback⟩, ⟨0, 0, fun _ => .ok (Rd.of _ 0)⟩, ⟨-1, 0, fun x => .ok (Rd.of _ (tenth * x))⟩]

def tenthOmegasR : List (OmegaLimit (Rd doubleRounding)) := [⟨⟨0, 0, fun _ => .ok (Rd.of _ 0)⟩, 1, 2⟩]

/-- The problem on which `simple_solve` is wrong (C69) meets the hypotheses of C73. -/
example : ∃ r, Returns (fun fuel => SimpleSolver.solve (2 ^ 31 - 1) fuel 2 tenthMusR tenthOmegasR) r := by
  refine C73_double (P := forcedP tenth (-1)) (R := 1) ?_ (forced_wf _ _) ?_ ?_ ?_ ?_ le_rfl (by simp [forcedP])
  · refine ⟨rfl, ?_, ?_⟩
    · intro i h h1
      have h3 : i < 3 := h
      interval_cases i
      · exact ⟨rfl, rfl, fun x a b => rfl⟩
      · exact ⟨rfl, rfl, fun x a b => rfl⟩
    · exact .cons ⟨rfl, rfl, rfl, rfl, fun x a b => rfl⟩ .nil
  · constructor
    · intro i h1 h2 x a b
      simp only [forcedP, Problem.mapCosts] at a b
      split at a <;> split at b <;> omega
    · simp [forcedP, Problem.mapCosts, Convex]
  · intro i h1 h2 x a b
    have h2 : i ≤ 2 := h2
    interval_cases i
    · simp only [forcedP] at a b
      norm_num at a b
      omega
    · simp only [forcedP] at a b
      norm_num at a b
      obtain rfl : x = -1 := by omega
      decide +kernel
  · intro p hp x a b
    cases List.mem_singleton.1 hp
    dsimp only at a b
    omega
  · refine ⟨⟨?_, ?_, ?_, ?_⟩, ?_, by norm_num, by norm_num, ?_, ?_⟩ <;> simp [forcedP]
    intro i h1 h2
    split <;> omega

end AHO.Props
