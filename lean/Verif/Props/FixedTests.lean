import Verif.Model.FixedTests
import Verif.Proof.ExactInput
import Verif.Props.Double
import Verif.Props.Oracle
/-!
# The fixed tests

`FixedTests.Case` are the arguments of the programs in the tests of `test/test.cpp:62-265`, with `Data = double`.
-/

namespace AHO.Props
open Spec Format FixedTests

/-- the literal `x` -/
def literal (x : ℚ) : Flt binary64 := Flt.rnd binary64 (.fin x)

/-- The fixed tests, in the order of the file, each with the value both sides of the comparison are claimed to have. -/
def fixedTests : List (Case (Flt binary64) × Option ℚ) :=
  [(emptyGraph, some 0), (singleNode1, some 1), (singleNode2 (literal (12 / 10)) (literal (34 / 10)), some (7746191359077253 / 2 ^ 51)),
    (miniGraph1, some (-3)), (miniGraph2, some 3), (miniGraph3, some 6), (miniGraph4, some 358), (miniGraph5, none),
    (noSolution1, none), (noSolution2, none), (noSolution3, none)]

/-- the number which a callback returns; 0 if it returns no number -/
def costOf : Res (Flt binary64) → ℚ
  | .ok ⟨.fin x⟩ => x
  | _ => 0

/-- The optimisation problem of a test: the ranges, and as costs the numbers which the callbacks return. -/
def problemOf (c : Case (Flt binary64)) : Problem ℚ where
  n := c.n
  lo i := (c.node.getD i noNode).l
  hi i := (c.node.getD i noNode).u
  F i x := costOf ((c.node.getD i noNode).fn x)
  pairs := c.edge.map fun o => ⟨o.i, o.j, o.l, o.u, fun x => costOf (o.fn x)⟩

/-- The callback returns numbers on `[l, u]`. -/
def Numbers (f : Int → Res (Flt binary64)) (l u : Int) : Prop :=
  ∀ k < (u - l + 1).toNat, f (l + k) = .ok (Flt.ofRat _ (costOf (f (l + k))))

/-- The numbers which the callback returns on `[l, u]` are convex. -/
def Bent (f : Int → Res (Flt binary64)) (l u : Int) : Prop :=
  ∀ k < (u - l - 1).toNat, costOf (f (l + k + 1)) - costOf (f (l + k)) ≤ costOf (f (l + k + 2)) - costOf (f (l + k + 1))

/-- what has to be checked for a test: the ranges are within 20 of zero and nonempty, the callbacks return numbers and are convex -/
structure Checked (c : Case (Flt binary64)) : Prop where
  len : c.node.length = c.n + 1
  node : ∀ m ∈ c.node.tail, m.l ≤ m.u ∧ -20 ≤ m.l ∧ m.u ≤ 20 ∧ Numbers m.fn m.l m.u ∧ Bent m.fn m.l m.u
  edge : ∀ o ∈ c.edge, (1 ≤ o.i ∧ o.i ≤ c.n ∧ 1 ≤ o.j ∧ o.j ≤ c.n ∧ o.i ≠ o.j) ∧ o.l ≤ o.u ∧ -20 ≤ o.l ∧ o.u ≤ 20 ∧ Numbers o.fn o.l o.u ∧
    Bent o.fn o.l o.u

instance (f : Int → Res (Flt binary64)) (l u : Int) : Decidable (Numbers f l u) := inferInstanceAs (Decidable (∀ k < _, _))
instance (f : Int → Res (Flt binary64)) (l u : Int) : Decidable (Bent f l u) := inferInstanceAs (Decidable (∀ k < _, _))

instance (c : Case (Flt binary64)) : Decidable (Checked c) :=
  decidable_of_iff _ ⟨fun h => ⟨h.1, h.2.1, h.2.2⟩, fun h => (⟨h.1, h.2, h.3⟩ : _ ∧ _ ∧ _)⟩

theorem Numbers.apply {f : Int → Res (Flt binary64)} {l u : Int} (h : Numbers f l u) {x : Int} (h1 : l ≤ x) (h2 : x ≤ u) :
    f x = .ok (Flt.ofRat _ (costOf (f x))) := by
  have := h (x - l).toNat (by omega)
  rwa [show l + ((x - l).toNat : Int) = x by omega] at this

section
variable {c : Case (Flt binary64)} (h : Checked c)
include h

theorem Checked.at {i : Nat} (h1 : 1 ≤ i) (h2 : i ≤ c.n) : c.node.getD i noNode ∈ c.node.tail := by
  have hl : i < c.node.length := by rw [h.len]; omega
  rw [List.getD_eq_getElem?_getD, List.getElem?_eq_getElem hl, Option.getD_some]
  obtain ⟨i, rfl⟩ : ∃ j, i = j + 1 := ⟨i - 1, by omega⟩
  have hl' : i < c.node.tail.length := by rw [List.length_tail]; omega
  have e : c.node[i + 1] = c.node.tail[i] := by rw [List.getElem_tail]
  rw [e]
  exact List.getElem_mem hl'

theorem Checked.rep : Represents ((problemOf c).mapCosts (Flt.ofRat binary64)) c.node c.edge := by
  refine ⟨h.len, fun i hi h1 => ?_, ?_⟩
  · have e : c.node[i] = c.node.getD i noNode := by
      rw [List.getD_eq_getElem?_getD, List.getElem?_eq_getElem hi, Option.getD_some]
    have h2 := h.node _ (h.at h1 (by rw [h.len] at hi; omega))
    rw [e]
    exact ⟨rfl, rfl, fun x a b => h2.2.2.2.1.apply a b⟩
  · show List.Forall₂ _ _ ((c.edge.map _).map _)
    rw [List.map_map, List.forall₂_map_right_iff, List.forall₂_same]
    intro o ho
    exact ⟨rfl, rfl, rfl, rfl, fun x a b => (h.edge o ho).2.2.2.2.1.apply a b⟩

theorem Checked.wf : WellFormed (problemOf c) := by
  have hp : ∀ p ∈ (problemOf c).pairs, (1 ≤ p.i ∧ p.i ≤ c.n ∧ 1 ≤ p.j ∧ p.j ≤ c.n ∧ p.i ≠ p.j) ∧ p.l ≤ p.u := by
    intro p hp
    obtain ⟨o, ho, rfl⟩ := List.mem_map.1 hp
    exact ⟨(h.edge o ho).1, (h.edge o ho).2.1⟩
  exact ⟨fun i h1 h2 => (h.node _ (h.at h1 h2)).1, fun p q => (hp p q).1.1, fun p q => (hp p q).1.2.1, fun p q => (hp p q).1.2.2.1,
    fun p q => (hp p q).1.2.2.2.1, fun p q => (hp p q).1.2.2.2.2, fun p q => (hp p q).2⟩

theorem Checked.cv : ConvexCosts (problemOf c) := by
  have key : ∀ {f : Int → Res (Flt binary64)} {l u : Int}, Bent f l u → Convex (fun x => costOf (f x)) l u := by
    intro f l u hb x h1 h2
    have := hb (x - l).toNat (by omega)
    rwa [show l + ((x - l).toNat : Int) = x by omega] at this
  refine ⟨fun i h1 h2 => key (h.node _ (h.at h1 h2)).2.2.2.2, fun p hp => ?_⟩
  obtain ⟨o, ho, rfl⟩ := List.mem_map.1 hp
  exact key (h.edge o ho).2.2.2.2.2

theorem Checked.representable : Representable (2 ^ 31 - 1) (problemOf c) := by
  constructor <;> intro p hp <;> obtain ⟨o, ho, rfl⟩ := List.mem_map.1 hp <;> have := (h.edge o ho).2 <;> simp only <;> omega

theorem Checked.within : Within (problemOf c) 40 := by
  refine ⟨fun i h1 h2 => ?_, fun i h1 h2 => ?_, fun p hp => ?_, fun p hp => ?_⟩
  · have := h.node _ (h.at h1 h2); show (-40 : Int) ≤ (c.node.getD i noNode).l; omega
  · have := h.node _ (h.at h1 h2); show (c.node.getD i noNode).u ≤ (40 : Int); omega
  · obtain ⟨o, ho, rfl⟩ := List.mem_map.1 hp
    have := (h.edge o ho).2; simp only; omega
  · obtain ⟨o, ho, rfl⟩ := List.mem_map.1 hp
    have h1 := (h.edge o ho).1
    have h2 := h.node _ (h.at h1.1 h1.2.1)
    have h3 := h.node _ (h.at h1.2.2.1 h1.2.2.2.1)
    show (-40 : Int) ≤ (c.node.getD o.i noNode).l - (c.node.getD o.j noNode).u
    omega

end

theorem fixed_check : ∀ t ∈ fixedTests, Checked t.1 := by decide +kernel

/-- no loop runs for more than 200 rounds -/
theorem fixed_oracle : ∀ t ∈ fixedTests,
    Oracle.bfSolve (2 ^ 31 - 1) 200 t.1.n t.1.node t.1.edge = .ok (t.2.map (Flt.ofRat binary64)) := by decide +kernel

theorem fixed_exact : ∀ t ∈ fixedTests,
    Oracle.bfSolve (2 ^ 31 - 1) 200 t.1.n (exactMus (problemOf t.1)) (exactOmegas (problemOf t.1)) = .ok t.2 := by decide +kernel

theorem fixed_solver1 : ∀ t ∈ fixedTests.take 4,
    ProblemSolver.run (2 ^ 31 - 1) 200 t.1.n t.1.node t.1.edge = .ok (t.2.map (Flt.ofRat binary64)) := by decide +kernel

theorem fixed_solver2 : ∀ t ∈ (fixedTests.drop 4).take 2,
    ProblemSolver.run (2 ^ 31 - 1) 200 t.1.n t.1.node t.1.edge = .ok (t.2.map (Flt.ofRat binary64)) := by decide +kernel

theorem fixed_solver3 : ∀ t ∈ (fixedTests.drop 4).drop 2,
    ProblemSolver.run (2 ^ 31 - 1) 200 t.1.n t.1.node t.1.edge = .ok (t.2.map (Flt.ofRat binary64)) := by decide +kernel

theorem fixed_solver (t : Case (Flt binary64) × Option ℚ) (ht : t ∈ fixedTests) :
    ProblemSolver.run (2 ^ 31 - 1) 200 t.1.n t.1.node t.1.edge = .ok (t.2.map (Flt.ofRat binary64)) := by
  rw [← List.take_append_drop 4 fixedTests, List.mem_append, ← List.take_append_drop 2 (fixedTests.drop 4), List.mem_append] at ht
  rcases ht with ht | ht | ht
  · exact fixed_solver1 t ht
  · exact fixed_solver2 t ht
  · exact fixed_solver3 t ht

/-- C52. In every fixed test both sides of the comparison, `bf_solve` and `fast_solve`, return with `double` the value given in `fixedTests` without
undefined behaviour. This value is the exact optimum of the problem which the arguments stand for, whose costs are convex, and it is nothing if the
constraints cannot be met. -/
theorem C52_fixed_tests : ∀ t ∈ fixedTests,
    Represents ((problemOf t.1).mapCosts (Flt.ofRat binary64)) t.1.node t.1.edge ∧ WellFormed (problemOf t.1) ∧ ConvexCosts (problemOf t.1) ∧
    Returns (fun fuel => Oracle.bfSolve (2 ^ 31 - 1) fuel t.1.n t.1.node t.1.edge) (t.2.map (Flt.ofRat binary64)) ∧
    Returns (fun fuel => ProblemSolver.run (2 ^ 31 - 1) fuel t.1.n t.1.node t.1.edge) (t.2.map (Flt.ofRat binary64)) ∧
    (∀ v, t.2 = some v ↔ IsOptimum (problemOf t.1) v) ∧ (t.2 = none ↔ ¬ Solvable (problemOf t.1)) := by
  intro t ht
  have hc := fixed_check t ht
  obtain ⟨r, h5, h6⟩ := C31_oracle_correct (exact_represents _) hc.wf (fun p hp => (hc.cv.pairs p hp).valley) hc.representable hc.within (by decide) (by decide)
  have e : r = t.2 := (h5.value 200 (fixed_exact t ht))
  rw [e] at h6
  exact ⟨hc.rep, hc.wf, hc.cv, returns_of_eval 200 (fixed_oracle t ht) fun _ _ h => Oracle.bfSolve_le h _ _ _, returns_of_eval 200 (fixed_solver t ht) fun _ _ h => ProblemSolver.run_le h _ _ _,
    h6⟩

/-- There are eleven tests; seven of the graphs have solutions. -/
example : fixedTests.length = 11 ∧ (fixedTests.filter fun t => t.2.isSome).length = 7 := by decide

/-- The theorem for one of them: the optimum of `mini_graph_4` is 358. -/
example : IsOptimum (problemOf miniGraph4) 358 :=
  ((C52_fixed_tests (miniGraph4, some 358) (by simp [fixedTests])).2.2.2.2.2.1 358).1 rfl

end AHO.Props
