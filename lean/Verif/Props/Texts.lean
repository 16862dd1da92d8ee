import Verif.Proof.GenText
import Verif.Props.Generator
import Verif.Props.FixedTests
/-!
# C67: the texts which describe a test

A failing random test prints `in.info`, the text which `TinyGen` has made, and `Graph::prettyPrint` prints a graph. The seed does not suffice to
repeat a test (C49); the text does.
-/

namespace AHO.Props
open Spec Gen Format FixedTests

section
variable {D : Type} [IntCast D] [Add D] [Mul D] [Div D]

/-- C67. The text made by `TinyGen` determines the graph, the costs included, and also across different arguments, seeds and states of the random
numbers: two results with the same text are equal. -/
theorem C67_info_determines_graph {n mlimit n' mlimit' : Int} {multi multi' : Bool} {nl el fl nl' el' fl' : Int × Int}
    (h : GenArgs n mlimit nl el fl) (h' : GenArgs n' mlimit' nl' el' fl') {fuel fuel' seed seed' : Nat} {s s₁ s' s₁' : Gen.State}
    (hs : s.funs = []) (hs' : s'.funs = []) {g g' : Graph D}
    (e : tinyGen fuel n mlimit multi nl el fl seed true s = .ok (g, s₁))
    (e' : tinyGen fuel' n' mlimit' multi' nl' el' fl' seed' true s' = .ok (g', s₁')) (hi : g.info = g'.info) : g = g' := by
  have a := tinyGen_text (T := False) (D := D) (fuel := fuel) (multi := multi) (seed := seed) (gi := true) h.args False.elim False.elim hs
  have b := tinyGen_text (T := False) (D := D) (fuel := fuel') (multi := multi') (seed := seed') (gi := true) h'.args False.elim False.elim hs'
  unfold Safe at a b
  rw [e] at a
  rw [e'] at b
  obtain ⟨⟨ends, nd, pd, ho, ht⟩, -⟩ := a
  obtain ⟨⟨ends', nd', pd', ho', ht'⟩, -⟩ := b
  have ht := ht rfl
  have ht' := ht' rfl
  have hi2 : infoText n nd ends pd = infoText n' nd' ends' pd' := by rw [← ht, ← ht', hi]
  obtain ⟨rfl, rfl, rfl, rfl⟩ := infoText_inj ho.pd_len ho'.pd_len ho.ends_ok ho'.ends_ok hi2
  have g1 : g.n = g'.n := by rw [ho.gn, ho'.gn]
  have g2 : g.m = g'.m := by rw [ho.gm, ho'.gm]
  have g3 : g.node = g'.node := by rw [ho.gnode, ho'.gnode]
  have g4 : g.edge = g'.edge := by rw [ho.gedge, ho'.gedge]
  cases g; cases g'
  simp only at g1 g2 g3 g4 hi
  rw [g1, g2, g3, g4, hi]

/-- C67. `prettyPrint` of such a graph appends this text. -/
theorem C67_pretty_print_info {n mlimit : Int} {multi : Bool} {nl el fl : Int × Int}
    (h : GenArgs n mlimit nl el fl) {fuel seed : Nat} {s s₁ : Gen.State} (hs : s.funs = []) {g : Graph D}
    (e : tinyGen fuel n mlimit multi nl el fl seed true s = .ok (g, s₁)) (out : String) : g.prettyPrint out = out ++ g.info := by
  have a := tinyGen_text (T := False) (D := D) (fuel := fuel) (multi := multi) (seed := seed) (gi := true) h.args False.elim False.elim hs
  unfold Safe at a
  rw [e] at a
  obtain ⟨⟨ends, nd, pd, ho, ht⟩, -⟩ := a
  unfold Graph.prettyPrint
  rw [if_pos]
  rw [ht rfl]
  exact infoText_ne _ _ _ _

end

/-- C67. For a graph without such a text, as the fixed tests make them, what `prettyPrint` prints determines the numbers of nodes and edges, the
ranges, and the ends of the edges. -/
theorem C67_pretty_print {D : Type} {g g' : Graph D} (h0 : g.info = "") (h0' : g'.info = "") (h : g.prettyPrint "" = g'.prettyPrint "") :
    g.n = g'.n ∧ g.m = g'.m ∧ g.node.map (fun e => (e.l, e.u)) = g'.node.map (fun e => (e.l, e.u)) ∧
    g.edge.map (fun e => (e.i, e.j, e.l, e.u)) = g'.edge.map (fun e => (e.i, e.j, e.l, e.u)) :=
  prettyPrint_inj h0 h0' h

/-- the graph of a fixed test (`test/test.cpp:62-265`); its second argument is the number of edges -/
def graphOf {D : Type} (c : Case D) : Graph D := { n := c.n, m := c.edge.length, node := c.node, edge := c.edge, info := "" }

/-- C67. The costs are not printed then: the fixed tests `mini_graph_1` and `mini_graph_2` are printed alike, but their optima are -3 and 3. -/
theorem C67_costs_not_printed :
    (graphOf (miniGraph1 (D := Flt binary64))).prettyPrint "" = (graphOf (miniGraph2 (D := Flt binary64))).prettyPrint "" ∧
    IsOptimum (problemOf miniGraph1) (-3) ∧ IsOptimum (problemOf miniGraph2) 3 := by
  refine ⟨rfl, ?_, ?_⟩
  · exact ((C52_fixed_tests (miniGraph1, some (-3)) (by simp [fixedTests])).2.2.2.2.2.1 _).1 rfl
  · exact ((C52_fixed_tests (miniGraph2, some 3) (by simp [fixedTests])).2.2.2.2.2.1 _).1 rfl

/-- The text of a small graph made by `TinyGen`. -/
example : GenArgs 2 1 (-3, 4) (-5, 9) (-10, 10) ∧
    (tinyGen (D := Int) 100 2 1 false (-3, 4) (-5, 9) (-10, 10) 7 true ⟨1, []⟩).toOption.map (fun r => r.1.info) = some
  "{\n\t2\n\t{\n\t\t{}\n\t\t{-2, 2, [](int x) { return 2.25 * x * x + -2.25 * x + 9.00; }}\n\t\t{-1, 3, [](int x) { return 1.75 * x * x + -5.50 * x + 7.75; }}\n\t}\n\t{\n\t\t{{-3, 3, [](int x) { return 6.25 * x * x + -6.50 * x + 8.25; }}, 1, 2}\n\t}\n}\n" :=
  ⟨by constructor <;> norm_num, by decide +kernel⟩

/-- What is printed for `no_solution_1`. -/
example : (graphOf (noSolution1 (D := Int))).prettyPrint "" =
    "{n: 2; {{l:0,u:0,F:#},{l:0,u:0,F:#},{l:0,u:0,F:#},}; m: 1; {{i:1,j:2,l:-1,u:-1,B:#},}; }" := by decide +kernel

end AHO.Props
