import Verif.Proof.SimpleCost
import Verif.Props.Simple
/-!
# Running time of the second oracle (C72)

`test/test.cpp:42` says `Complexity: O(n * m * U * log^2)`. `SimpleSolver.solveC` counts the evaluations of the costs of the problem, and the steps of
`CostScaling::MinCost`: calls of `Refine`, rounds of `while (!st.empty())`, iterations of the loops over the edges of a node, calls of `Relabel`.
-/

namespace AHO.Props
open Spec
set_option linter.unusedSectionVars false

section
variable {D : Type} [Zero D] [One D] [Add D] [Sub D] [Neg D] [Mul D] [Div D] [IntCast D] [LT D] [LE D] [DecidableLT D]
  [DecidableLE D] [BEq D]

/-- C72: the counters do not change what is computed. -/
theorem C72_counters_only (imax : Int) (fuel : Nat) :
    (∀ s : CostScaling D, (CostScaling.refineC fuel s).map (·.2) = CostScaling.refine fuel s) ∧
    (∀ n (arcs : List (InputEdge D)), (CostScaling.minCostC imax fuel n arcs).map (·.2) = CostScaling.minCost imax fuel n arcs) ∧
    ∀ n (Mus : List (MuLimit D)) Omegas, (SimpleSolver.solveC imax fuel n Mus Omegas).map (·.2) = SimpleSolver.solve imax fuel n Mus Omegas :=
  ⟨CostScaling.refineC_er fuel, CostScaling.minCostC_er imax fuel, SimpleSolver.solveC_er imax fuel⟩

/-- C72, the evaluations, for every type of `Data`, all costs, and every outcome. `W` bounds the lengths of the ranges which are split, `q` the
evaluations in one ternary search over such a range: a node takes `O(W)` evaluations, a pair `O(W log W)`. -/
theorem C72_evaluations {imax : Int} {fuel n : Nat} {Mus : List (MuLimit D)} {Omegas : List (OmegaLimit D)} {w : SimpleSolver.Work} {r : Option D}
    (W : Nat) (hn : ∀ (i : Nat) (m : MuLimit D), 1 ≤ i → Mus[i]? = some m → m.u - m.l ≤ (W : Int))
    (hm : ∀ e ∈ Omegas, e.u - e.l ≤ W ∧ ∀ mi mj, Mus[e.i]? = some mi → Mus[e.j]? = some mj → e.u - (mi.l - mj.u) ≤ W)
    (h : SimpleSolver.solveC imax fuel n Mus Omegas = .ok (w, r)) :
    ∃ q, q = 4 * W.size + 2 ∧ w.evals ≤ n * (4 * (W + 1) + 2 + q) + Omegas.length * (4 * (W + 1) * q + 2 + q ^ 2) :=
  ⟨_, rfl, (SimpleSolver.solveC_count (fun i hi h1 => hn i _ h1 (List.getElem?_eq_getElem hi)) hm h).1⟩

end

section
variable {K : Type} [Field K] [LinearOrder K] [IsStrictOrderedRing K] {imax : Int} {n : Nat} {arcs : List (InputEdge K)}

/-- C72. One `Refine` on `n` nodes and `a` arcs relabels a node at most `3 (n - 1) + 1` times, and takes at most
`(3 (n - 1) + 1) (2 a + n) n + n²` rounds. -/
theorem C72_refine (h : NetworkArgs imax n arcs) {s0 s : CostScaling K} (h0 : CostScaling.init imax n arcs = .ok s0) {f p : Nat → K}
    (hs : CostScaling.Holds arcs s0 f p s) (hcirc : Circulation (arcs.map InputEdge.arc) f) (hpos : 0 < s.epsilon)
    (hopt : FlowEpsOptimal (arcs.map InputEdge.arc) f p s.epsilon) :
    ∃ N, ∀ fuel, N ≤ fuel → ∃ c s', CostScaling.refineC fuel s = .ok (c, s', true) ∧ c.phases = 1 ∧
      c.relabels ≤ n * (3 * (n - 1) + 1) ∧
      c.rounds ≤ (3 * (n - 1) + 1) * (2 * arcs.length + n) * n + n * n ∧
      c.scans ≤ (3 * (n - 1) + 3) * (2 * arcs.length) + ((3 * (n - 1) + 1) * (2 * arcs.length + n) * n + n * n) := by
  refine ⟨CS.refFuel n (2 * arcs.length), fun fuel hf => ?_⟩
  obtain ⟨c, s', f', p', e, w, -⟩ := CS.refineC_flow h.u_lt h.v_lt h.ne h.count (fun a ha => by have := h.cost_lo a ha; omega)
    (fun a ha => by have := h.cost_hi a ha; omega) h0 hs hcirc hpos hopt hf
  exact ⟨c, s', e, w.phases, w.relabels, w.rounds, w.scans⟩

theorem eps0_eq {C : Nat} (h1 : 1 ≤ C) (hC : ∀ a ∈ arcs, a.cost ≤ (C : Int)) (hx : C = 1 ∨ ∃ a ∈ arcs, a.cost = (C : Int)) : CS.eps0 arcs = C := by
  refine le_antisymm ?_ ?_
  · have : ∀ (L : List (InputEdge K)) (b : Int), b ≤ C → (∀ a ∈ L, a.cost ≤ (C : Int)) → L.foldl (fun b e => max b e.cost) b ≤ C := by
      intro L
      induction L with
      | nil => exact fun _ h _ => h
      | cons x L ih =>
        intro b hb h
        exact ih _ (max_le hb (h x (by simp))) fun a ha => h a (List.mem_cons_of_mem _ ha)
    exact this arcs 1 (by omega) hC
  · rcases hx with rfl | ⟨a, ha, h⟩
    · exact CS.foldl_max_ge _ _
    · rw [← h]; exact CS.foldl_max_mem ha _

/-- C72. If `C` is the largest cost (or 1), `MinCost` calls `Refine` exactly as often as `C n` has binary digits: `⌊log₂ (C n)⌋ + 1` times. All in all
there are `O(n² (a + n) log (C n))` rounds. -/
theorem C72_min_cost (h : NetworkArgs imax n arcs)
    (heps : ∀ a ∈ arcs, a.capacity = 0 ∨ -1 ≤ a.cost ∨ ∃ b ∈ arcs, -a.cost ≤ b.cost)
    {C : Nat} (h1 : 1 ≤ C) (hC : ∀ a ∈ arcs, a.cost ≤ (C : Int)) (hx : C = 1 ∨ ∃ a ∈ arcs, a.cost = (C : Int)) :
    ∃ N, ∀ fuel, N ≤ fuel → ∃ c R, CostScaling.minCostC imax fuel n arcs = .ok (c, true, R) ∧
      IsLeast {c | ∃ f, Circulation (arcs.map InputEdge.arc) f ∧ flowCost (arcs.map InputEdge.arc) f = c} (-R) ∧
      c.phases = (C * n).size ∧
      c.relabels ≤ (C * n).size * (n * (3 * (n - 1) + 1)) ∧
      c.rounds ≤ (C * n).size * ((3 * (n - 1) + 1) * (2 * arcs.length + n) * n + n * n) ∧
      c.scans ≤ (C * n).size * ((3 * (n - 1) + 3) * (2 * arcs.length) + ((3 * (n - 1) + 1) * (2 * arcs.length + n) * n + n * n)) := by
  refine ⟨CS.csFuel arcs n, fun fuel hf => ?_⟩
  obtain ⟨c, R, f, π, e, g1, g2, g3, w⟩ := CS.minCostC_spec (imax := imax) (n := n) (arcs := arcs) h.u_lt h.v_lt h.ne h.nonneg
    (fun a ha => (heps a ha).imp id (Or.imp (fun h => by omega) id)) h.count (fun a ha => by have := h.cost_lo a ha; omega)
    (fun a ha => by have := h.cost_hi a ha; omega) hf
  rw [eps0_eq h1 hC hx, Int.toNat_natCast] at w
  refine ⟨c, R, e, ⟨⟨f, g1, g2⟩, ?_⟩, w.phases, w.relabels, w.rounds, w.scans⟩
  rintro c ⟨f', k1, rfl⟩
  have := CS.weak_duality k1 π
  rw [g3] at this
  linarith

end

/-- The hypotheses of `C72_min_cost` are met by the example of `Verif.Props.Simple`, the largest cost being 3. `3 · 3` has four binary digits. -/
example : NetworkArgs (2 ^ 31 - 1) 3 exEdges ∧ (∀ a ∈ exEdges, a.capacity = 0 ∨ -1 ≤ a.cost ∨ ∃ b ∈ exEdges, -a.cost ≤ b.cost) ∧
    (∀ a ∈ exEdges, a.cost ≤ ((3 : Nat) : Int)) ∧ ∃ a ∈ exEdges, a.cost = ((3 : Nat) : Int) :=
  ⟨exEdges_ok, by simp [exEdges], by simp [exEdges], ⟨1, 0, 3, 1 / 2⟩, by simp [exEdges], rfl⟩

/-- C72, the counters for that example. -/
theorem C72_example_network : CostScaling.minCostC (2 ^ 31 - 1) 200 3 exEdges = .ok (⟨4, 29, 99, 15⟩, true, 4) := by decide +kernel

section
variable {K : Type} [Field K] [LinearOrder K] [IsStrictOrderedRing K]
variable {P : Problem K} {Mus : List (MuLimit K)} {Omegas : List (OmegaLimit K)} {imax R : Int}

/-- C72. Under the hypotheses of C44 `simple_solve` returns the optimum, or nothing, after
* `O((n + m log R) R)` evaluations of costs,
* `L = ⌊log₂ ((R + 1) (n + 1))⌋ + 1` calls of `Refine` or fewer,
* `O(n² (n + m) R L)` rounds, the network having `n + 1` nodes and `O((n + m) R)` arcs. -/
theorem C72_correct_in_time (rep : Represents P Mus Omegas) (wf : WellFormed P) (cv : ConvexCosts P) (cap : SimpleCapacity imax P R)
    (sp : Spread P (10 ^ 9)) {A L q : Nat} (hA : (A : Int) = 2 * (2 * R + 1) * (P.n + P.pairs.length))
    (hL : L = ((R + 1).toNat * (P.n + 1)).size) (hq : q = 4 * (2 * R).toNat.size + 2) :
    ∃ N, ∀ fuel, N ≤ fuel → ∃ w r, SimpleSolver.solveC imax fuel P.n Mus Omegas = .ok (w, r) ∧
      (∀ v, r = some v ↔ IsOptimum P v) ∧ (r = none ↔ ¬ Solvable P) ∧
      w.evals ≤ P.n * (4 * ((2 * R).toNat + 1) + 2 + q) + P.pairs.length * (4 * ((2 * R).toNat + 1) * q + 2 + q ^ 2) ∧
      w.flow.phases ≤ L ∧
      w.flow.relabels ≤ L * ((P.n + 1) * (3 * P.n + 1)) ∧
      w.flow.rounds ≤ L * ((3 * P.n + 1) * (2 * A + (P.n + 1)) * (P.n + 1) + (P.n + 1) * (P.n + 1)) ∧
      w.flow.scans ≤ L * ((3 * P.n + 3) * (2 * A) + ((3 * P.n + 1) * (2 * A + (P.n + 1)) * (P.n + 1) + (P.n + 1) * (P.n + 1))) := by
  have sp' : Spread P (SimpleSolver.bigM : K) := by
    have : (SimpleSolver.bigM : K) = 10 ^ 9 := by unfold SimpleSolver.bigM; norm_num
    rw [this]; exact sp
  refine ⟨SimpleSolver.solveFuel P.n P.pairs.length R, fun fuel hf => ?_⟩
  obtain ⟨⟨r, e, ho⟩, s1, s2, c, x, e1, e2, e3, hw, hE, hep⟩ :=
    SimpleSolver.solve_full rep wf cv cap.within cap.lo sp' cap.R_nonneg cap.range cap.nodes cap.edges hf
  obtain ⟨w, ew⟩ := (SimpleSolver.solveC_er imax fuel P.n Mus Omegas).of_ok e
  have hR := cap.R_nonneg
  have mus : ∀ (i : Nat) m, 1 ≤ i → Mus[i]? = some m → i ≤ P.n ∧ m.l = P.lo i ∧ m.u = P.hi i := by
    intro i m h1 hm
    obtain ⟨hi, rfl⟩ := List.getElem?_eq_some_iff.1 hm
    have h5 := rep.mus i hi h1
    exact ⟨by have := rep.len; omega, h5.l, h5.u⟩
  obtain ⟨g1, g2⟩ := SimpleSolver.solveC_count (W := (2 * R).toNat)
    (fun i hi h1 => by
      obtain ⟨a, b, c⟩ := mus i _ h1 (List.getElem?_eq_getElem hi)
      rw [b, c]
      have := cap.within.lo i h1 a
      have := cap.within.hi i h1 a
      omega)
    (by
      have key : ∀ {es : List (OmegaLimit K)} {ps : List (Pair K)}, List.Forall₂ OmegaLimit.Is es ps → ∀ e ∈ es, ∃ p ∈ ps, e.Is p := by
        intro es ps h
        induction h with
        | nil => intro e he; cases he
        | cons h1 _ ih =>
          intro e he
          rcases List.mem_cons.1 he with rfl | he
          · exact ⟨_, List.mem_cons_self, h1⟩
          · obtain ⟨p, hp, h⟩ := ih e he
            exact ⟨p, List.mem_cons_of_mem _ hp, h⟩
      intro e he
      obtain ⟨p, hp, h⟩ := key rep.omegas e he
      have a1 := cap.lo p hp
      have a2 := cap.within.u p hp
      have a3 := cap.within.diff p hp
      refine ⟨by rw [h.l, h.u]; omega, fun mi mj hi hj => ?_⟩
      rw [h.i] at hi
      rw [h.j] at hj
      obtain ⟨-, b1, -⟩ := mus _ _ (wf.i_pos p hp) hi
      obtain ⟨-, -, b2⟩ := mus _ _ (wf.j_pos p hp) hj
      rw [h.u, b1, b2]
      omega) ew
  rw [rep.omegas.length_eq] at g1
  refine ⟨w, r, ew, outcome_some ho, outcome_none ho, by rw [hq]; exact g1, ?_⟩
  rcases g2 with g2 | ⟨t1, t2, y, f1, f2, f3⟩
  · rw [g2]
    exact ⟨Nat.zero_le _, Nat.zero_le _, Nat.zero_le _, Nat.zero_le _⟩
  · rw [e1] at f1
    cases f1
    rw [e2] at f2
    cases f2
    rw [e3] at f3
    cases f3
    have hlen : s2.edge.length ≤ A := by omega
    have hp : ((CS.eps0 s2.edge).toNat * (P.n + 1)).size ≤ L := by
      rw [hL]
      exact Nat.size_le_size (Nat.mul_le_mul_right _ (by omega))
    have h3 : 3 * (P.n + 1 - 1) = 3 * P.n := by omega
    have w1 := hw.relabels
    have w2 := hw.rounds
    have w3 := hw.scans
    unfold CS.maxRel at w1
    unfold CS.refRounds at w2 w3
    rw [h3] at w1 w2 w3
    refine ⟨by rw [hw.phases]; exact hp, w1.trans (by gcongr), w2.trans (by gcongr), w3.trans (by gcongr)⟩

end

/-- The hypotheses of `C72_correct_in_time` are met by the example of `Verif.Props.Example`, with at most 104 arcs, five calls of `Refine` and 18
evaluations in a search. -/
example : Represents exP exMus exOmegas ∧ WellFormed exP ∧ ConvexCosts exP ∧ SimpleCapacity (2 ^ 31 - 1) exP 6 ∧ Spread exP (10 ^ 9) ∧
    ((104 : Nat) : Int) = 2 * (2 * 6 + 1) * (exP.n + exP.pairs.length) ∧ 5 = (((6 : Int) + 1).toNat * (exP.n + 1)).size ∧
    18 = 4 * (2 * (6 : Int)).toNat.size + 2 :=
  ⟨ex_rep, ex_wf, ex_cv, ex_simpleCapacity, ex_spread, by simp [exP], by decide +kernel, by decide +kernel⟩

/-- C72, the counters for that example. -/
theorem C72_example_counter : SimpleSolver.solveC (2 ^ 31 - 1) 300 exP.n exMus exOmegas = .ok (⟨476, ⟨5, 26, 612, 15⟩⟩, some 9) := by decide +kernel

end AHO.Props
