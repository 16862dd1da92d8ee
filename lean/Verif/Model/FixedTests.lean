import Verif.Model.Solver
import Verif.Model.Oracle
/-!
# The fixed tests (`test/test.cpp:62-265`)

Each of them compares `Test::bf_solve` with `Test::fast_solve` on one graph. The first node of each graph is `{}`, whose callback is empty; here it
fails. The callbacks which compute with `int` are modelled without a check of overflow (the arguments are at most 20 in absolute value) and converted to
`Data` at the end. The number of edges, which the programs do not use, is left out. The literals
`1.2` and `3.4` of `single_node_graph_2` are parameters; each operation of its callback is one operation of `D` (no contraction to a fused operation).
-/

namespace AHO.FixedTests
variable {D : Type} [IntCast D]

/-- arguments of the programs -/
structure Case (D : Type) where
  n : Nat
  node : List (MuLimit D)
  edge : List (OmegaLimit D)

/-- `{}` -/
def noNode : MuLimit D := ⟨0, 0, fun _ => .error .callback⟩

/-- a node with a callback of integer type -/
def nd (l u : Int) (g : Int → Int) : MuLimit D := ⟨l, u, fun x => .ok ((g x : Int) : D)⟩

/-- an edge with a callback of integer type -/
def ed (l u : Int) (g : Int → Int) (i j : Nat) : OmegaLimit D := ⟨⟨l, u, fun x => .ok ((g x : Int) : D)⟩, i, j⟩

/-- `empty_graph` (`test/test.cpp:62-72`) -/
def emptyGraph : Case D := ⟨0, [noNode], []⟩

/-- `single_node_graph_1` (`test/test.cpp:74-87`) -/
def singleNode1 : Case D := ⟨1, [noNode, nd (-9) 9 fun _ => 1], []⟩

/-- `single_node_graph_2` (`test/test.cpp:89-102`); `a`, `b` are the literals `1.2`, `3.4`. -/
def singleNode2 [Add D] [Sub D] [Mul D] (a b : D) : Case D :=
  ⟨1, [noNode, ⟨-9, 9, fun x => .ok (((x : D) - a) * ((x : D) - a) + b)⟩], []⟩

/-- `mini_graph_1` (`test/test.cpp:104-120`) -/
def miniGraph1 : Case D :=
  ⟨2, [noNode, nd (-2) 2 fun x => -x, nd (-2) 2 fun x => x], [ed (-4) 4 (fun x => (x - 3) * (x - 3)) 1 2]⟩

/-- `mini_graph_2` (`test/test.cpp:122-138`) -/
def miniGraph2 : Case D :=
  ⟨2, [noNode, nd (-2) 2 fun x => -x, nd (-2) 2 fun x => x], [ed (-4) 4 (fun x => (x + 3) * (x + 3)) 1 2]⟩

/-- `mini_graph_3` (`test/test.cpp:140-159`) -/
def miniGraph3 : Case D :=
  ⟨3, [noNode, nd 0 0 fun x => 5 * x * x + -9 * x + -6, nd 0 1 fun x => 8 * x * x + 8 * x + -6, nd (-2) 1 fun x => 4 * x * x + 6 * x + 10],
    [ed (-2) 3 (fun x => 1 * x * x + -4 * x + 9) 2 1, ed (-1) 3 (fun x => 2 * x * x + 7 * x + 2) 3 2,
      ed 1 2 (fun x => 2 * x * x + 8 * x + -2) 3 1]⟩

/-- `mini_graph_4` (`test/test.cpp:161-182`) -/
def miniGraph4 : Case D :=
  ⟨4, [noNode, nd (-2) 0 fun x => 2 * x * x + 9 * x + 4, nd 1 2 fun x => 5 * x * x + -1 * x + 6, nd (-1) 0 fun x => 0 * x * x + 10 * x + 5,
      nd 0 0 fun x => 0 * x * x + 10 * x + 5],
    [ed 0 7 (fun x => 4 * x * x + 9 * x + -1) 2 4, ed 2 9 (fun x => 8 * x * x + 5 * x + -7) 1 4,
      ed 5 9 (fun x => 10 * x * x + 9 * x + 4) 3 4, ed (-2) 1 (fun x => 8 * x * x + 5 * x + 8) 1 2]⟩

/-- `mini_graph_5` (`test/test.cpp:184-208`) -/
def miniGraph5 : Case D :=
  ⟨5, [noNode, nd (-8) 0 fun x => 5 * x * x + 2 * x + 1, nd (-6) 3 fun x => 4 * x * x + -8 * x + 4, nd (-10) (-10) fun x => 5 * x * x + 9 * x + -4,
      nd 4 5 fun x => 8 * x * x + 1 * x + 0, nd (-3) 0 fun x => 1 * x * x + 6 * x + 5],
    [ed 10 12 (fun x => 5 * x * x + 4 * x + -2) 4 3, ed 10 15 (fun x => 7 * x * x + 0 * x + -5) 3 2,
      ed 17 20 (fun x => 1 * x * x + -3 * x + 0) 3 5, ed 12 18 (fun x => 0 * x * x + 10 * x + 10) 5 1,
      ed 17 19 (fun x => 1 * x * x + -7 * x + 6) 3 1, ed 13 20 (fun x => 3 * x * x + -3 * x + -8) 4 5]⟩

/-- `no_solution_1` (`test/test.cpp:210-226`) -/
def noSolution1 : Case D := ⟨2, [noNode, nd 0 0 fun _ => 0, nd 0 0 fun _ => 0], [ed (-1) (-1) (fun _ => 0) 1 2]⟩

/-- `no_solution_2` (`test/test.cpp:228-245`) -/
def noSolution2 : Case D :=
  ⟨2, [noNode, nd 0 3 fun _ => 0, nd 0 3 fun _ => 0], [ed 0 1 (fun _ => 0) 1 2, ed (-3) (-2) (fun _ => 0) 2 1]⟩

/-- `no_solution_3` (`test/test.cpp:247-265`) -/
def noSolution3 : Case D :=
  ⟨3, [noNode, nd 0 0 fun _ => 0, nd 0 1 fun _ => 0, nd 0 0 fun _ => 0], [ed (-1) (-1) (fun _ => 0) 1 2, ed 0 0 (fun _ => 0) 2 3]⟩

end AHO.FixedTests
