# Formal model of EasternLi/AHO-MS2003 in Lean 4

The program solves: given ranges and convex costs for integer variables `mu_1..mu_n`, and ranges and convex costs for
`omega_k` with `mu_i - mu_j <= omega_k`, find the least total cost (or say that there is none). It does so with a cost-scaling
network flow algorithm on dynamic trees. The properties are in `properties.jsonl` (C01..), the claims in `MANIFEST.json`.

## 1. What is modelled

| Lean module (`lean/Verif/`) | models | remarks |
|---|---|---|
| `Model/Base.lean` | language primitives | outcomes, `std::vector`, checked `int`, `while`, `for`, `std::max` |
| `Model/Define.lean` | `src/include/ProblemDefine.hpp`, `src/ProblemDefine.cpp` | all |
| `Model/Queue.lean` | `src/UniqueQueue.{hpp,cpp}` | all |
| `Model/LCT.lean` | `3rd/lct/LCT.{hpp,cpp}` | all, at the level of pointers |
| `Model/LCTCost.lean` | `3rd/lct/LCT.cpp` | the same functions with counters of the steps, for C56 and C57; removing the counters gives `Model/LCT.lean` (`Proof/LCTCost.lean`) |
| `Model/FlowCost.lean` | `src/Flow.cpp` | the functions of `Model/Flow.lean` which use the link-cut tree, with counters, for C58; removing the counters gives `Model/Flow.lean` (`Proof/FlowCost.lean`). The loop of `initialization` and the second one of `push_all_admissible_edge` are counted by their known number of iterations; an iteration of the loop of `send` calls `get_min_wtrbnr` and is counted there |
| `Model/SolverCost.lean` | `src/ProblemDefine.cpp`, `src/Flow.cpp`, `src/ProblemSolver.cpp` | the functions outside the phases with counters, for C63; removing the counters gives the model (`Proof/SolverCost.lean`). Not counted: comparisons of keys in `std::map`, copying of vectors and of `std::function` objects (for the latter see `Model/Closure.lean`). An evaluation of a merged limit counts once; it calls each function given by the caller at most once |
| `Model/Closure.lean` | `src/ProblemDefine.cpp`, `src/ProblemSolver.cpp` | the `std::function` objects which `pre_processing`, `reverse` and `merge` make, with the calls of an evaluation and the number of objects copied, for C65; the functions of the objects are those of the model (`Proof/Closure.lean`). Not counted: copying `Mus`, `Omegas` and the result as wholes, bytes of the stack |
| `Model/Flow.lean` | `src/Flow.{hpp,cpp}` | all |
| `Model/Solver.lean` | `src/include/ProblemSolver.hpp`, `src/ProblemSolver.cpp` | all |
| `Model/Wrapped.lean` | `src/include/WrappedDouble.hpp` | all operators; infinities and NaN; over any number type, in particular `Flt f` (rounded `eps` and rounded bounds). The other models write `a > b` as `b < a`; where C59 applies the two agree (`C59_comparisons_exact`). `operator<<` and `prettyPrint` are in `Model/Print.lean` |
| `Model/Print.lean` | `src/include/WrappedDouble.hpp:40-43` | the texts of `%f` (`std::to_string`) and `%g` (stream with default settings) from the exact value, nearest decimal, ties to even; infinities and NaN. The sign of zero and of NaN is not modelled |
| `Model/Double.lean` | `using Data = double` | binary floating point of any format, rounded after every operation |
| `Model/IntData.lean` | `Data` changed to an integer type | values `-b-1, …, b`; the result of overflow is a parameter |
| `Model/Oracle.lean` | `test/test.cpp:13-41` (`bf_solve`) | the test oracle |
| `Model/OracleCost.lean` | the same | with the number of evaluations of cost functions |
| `Model/CostScaling.lean` | `test/CostScaling.{hpp,cpp}` | all: the minimum cost circulation solver used by the second oracle |
| `Model/CostScalingCost.lean` | the same | with the numbers of phases, rounds, scanned edges and relabellings |
| `Model/SimpleSolver.lean` | `test/SimpleSolver.{hpp,cpp}`, `simple_solve` (`test/test.cpp:43-50`) | all: the second oracle |
| `Model/SimpleCost.lean` | the same | with the number of evaluations of cost functions, and the counters of `CostScalingCost` |
| `Model/FixedTests.lean` | `test/test.cpp:62-265` | the graphs of the fixed tests |
| `Model/Rounded.lean` | `using Data = double` and `double` in `test/` | exact operations followed by a rounding, which is a parameter; no infinities; used in C68 only |
| `Model/GraphText.lean` | `test/Graph.cpp` | `prettyPrint`; `int` and `size_t` are written in decimal (the default of the stream) |
| `Model/Generator.lean` | `test/generator.cpp`, `test/Graph.hpp`, `SmallGen1`..`HugeGen3` (`test/test.cpp:272-305`); `Graph::GenGraph` of `3rd/generator/gen.h`; `random_t::next*`, `setSeed`, `shuffle` of `3rd/generator/testlib.h` | the parts of the third-party files that `TinyGen` uses |

Every definition cites the lines it models.

**Not modelled:** the rest of `3rd/generator`, `3rd/testa`; build files. Of the C++ language: memory allocation and its failure,
destructors, moves and copies, exceptions other than a failing callback, threads, the cost of container operations, depth of the
call stack (of the recursion in `push_down_from_root`, C56 gives the greatest depth in nodes; `dfs` of `bf_solve` recurses `n` deep).

### Modelling decisions

* **Outcomes.** Every function returns `Res a = Except Err a`. `Err` distinguishes access outside a vector, null dereference, signed
  overflow or lossy narrowing, `front`/`pop` on an empty queue, failed `assert`, division by zero, a callback applied to an argument it
  does not accept, and `fuel` (a loop did not finish within the given number of rounds). Undefined behaviour is never assumed away: after
  it nothing is promised, and the theorems exclude it. The `assert` of `Flow`/`LCT` is taken to be active.
  The macro `assert` in the constructor of `ProblemSolver` is redefined there (`src/ProblemSolver.cpp:12-20`): it marks the object invalid and
  returns; the model does that.
* **Loops.** `while` takes a bound (`fuel`). `Returns f v` means: for all large enough bounds the result is `v`. Smaller bounds give the
  same result or `fuel` (`Proof/Mono.lean`), so `fuel` is only a device to define the loops.
* **int.** `Int` with a range check `ck imax` after every arithmetic operation; `imax` is a parameter (the header
  says that the type may have to be replaced). `2^31 - 1` is the code as it stands.
* **size_t.** `Nat`. The only wrap-around which can matter (`n + 1` for `n = SIZE_MAX` in the constructor) is modelled (C33).
  `size_t(-1)` as "no parent" is `none`. Vectors are shorter than `2^64`.
* **Data.** A type parameter with only the notations used in the code, no laws. Three kinds of instances:
  an arbitrary linearly ordered field (exact arithmetic, most theorems), `Flt f` (rounded floating point, C32, C37, C38, C40),
  `Wrapped D` (C30, C36; over `Flt f`: C59). C04, C11, C33, C39 hold for every type.
* **Callbacks** (`std::function`). `Int -> Res D`: pure, may fail. The theorems assume only that a callback gives the
  value of the cost function on its declared range. So "no error" includes that it is never called elsewhere (C08).
* **Generator.** State: the seed of `rnd` and the queue `fun`. `rnd` and the map `e` are modelled as far as `TinyGen` uses them. `reject`, `drawPair` and the edge loop take `fuel`.
* **Pointers.** All LCT nodes live in one vector, a pointer is `Option Nat`.
* **std::map** in `merge_limits`: an association list sorted by key.
* **double.** The exact result of every single operation is rounded to the nearest number, ties to even, and becomes infinite if too large
  (C40 proves that the algorithm of the model does this). No fused multiply-add, no extended precision. The sign of zero is not
  modelled; the code cannot observe it, because it divides by 2 only. A callback returns a number of the format.

## 2. Specification

`Spec.lean`, `SpecForest.lean`, `SpecRelaxed.lean` and `SpecDual.lean` do not import the model. `Problem`, `Feasible`, `cost`, `IsOptimum`, `Solvable`, `WellFormed`, `ConvexCosts`,
`Widths`, `Within`, `Representable`, `Capacity`, `bitCeil` speak about the user's problem; `Forest`, `ForestOp`, `Forest.Valid`, `Forest.History`, `Forest.Linked` about a naive
forest with values. `Link.lean` says when arguments of the program represent a problem (`Represents`) and what `Returns` means.
`FlowArc`, `Circulation`, `flowCost`, `slackCost`, `FlowEpsOptimal` speak about networks, `InRanges` and `Spread` about the sizes of costs, `RandomCost` and `RandomProblem` about what the generator should make; `LinkSimple.lean` says
what a state of `CostScaling` stands for. `IsRounded` (in `Props/Rounding.lean`) is the definition of rounding in IEEE 754.

The property theorems are in `Props/`. Beside each stands an `example` which meets its hypotheses
(`Props/Example.lean` contains the instance used most often: two variables, three limits on one pair in both orientations).

## 3. How it is proved

### Files of the proof

* `LCTTree`, `LCTRot`, `LCTSplay`, `LCTAccess`, `LCTOps`: a heap represents a forest through a family of auxiliary binary trees whose in-order
  sequences are paths of the forest (`Inv`, `RepE`). Values with lazy additions are read off a tree (`Good`). One lemma for every operation.
* `LCTPot`, `LCTSInv`, `LCTForest`, `LCTAmort`, `LCTSizes`, `LCTAmortOps`, `LCTAmortRun`, `LCTSpine`: the pointers alone (`SInv`), and the number of steps.
* `Slope`, `Define`, `Merge`, `Calc`: convexity, binary search, `pre_processing`, `min`, `reverse`, `merge`, `merge_limits`, `calc`.
* `FlowNet`, `FlowInv`, `FlowSend`, `FlowChoice`, `FlowGap`, `FlowRefine`, `FlowPhase`, `FlowSteps`: invariant of the flow algorithm (antisymmetry,
  flows within `[-M, M]`, sum of imbalances, epsilon-optimality, active nodes are queued and are roots, current edges, links are
  admissible edges with the right residual value in the tree), and a lexicographic measure for termination. `FlowGap` bounds the potentials.
* `FlowMk`, `Dual`, `FlowMin`: the constructor; rounding of scaled potentials to integral ones (pigeonhole on the residues mod `2(n+1)`), strong duality.
* `Solve`: the whole solver; the capacity of `int`. `Rounds`: the number of rounds of `refine`.
* `Emb`, `FlowEmb`, `Sim`, `SimSolve`, `Double`: the invariants above are proved for a pair of runs, one in exact arithmetic and one in an arithmetic
  which is exact only on a bounded set of values closed under the operations (`FEmb`). With the identity this gives the exact theorems,
  with multiples of `2^j` below `2^(p+j)` the theorem on floating point.
* `Mono` (more fuel), `Width` (wider `int`): relational proofs over the whole program, for every data type.
* `Drift`: the algorithm commutes with raising all potentials; a state which recurs with higher potentials leads to overflow.
* `CSNet`, `CSRefine`, `CSLoop`, `CSPhase`, `CSScale`, `CSInit`, `CSMin`: the push-relabel algorithm of `test/CostScaling.cpp`: invariant (capacities of paired edges,
  excesses, epsilon-optimality, the stack holds exactly the active nodes), bound on relabels, lexicographic measure, phases, duality.
* `SimpleSplit`, `SimpleSolve`, `SimpleMono`: ternary search, arcs made from a convex function (`slackCost` of these arcs = the function minus its minimum), the whole of `Solve`.
* `Lcg` (the linear congruential generator has full period `2^48`), `Generator` (what every part of `TinyGen` returns; it ends because every value, and for the
  graphs of the tests every new pair of nodes, occurs within a period), `GenWindows` (for these graphs, places in the period where the pairs are drawn; checked by the kernel),
  `GenMono`, `GenProblem`, `GenBounds` (sizes of the problems made).
* `Exact`, `ExactInput`, `ExactOracle`, `ExactCS`, `ExactMin`, `ExactSimple`: if all numbers which a run in exact arithmetic computes are representable, the run in floating point is its image (`Sim`); for `bf_solve` and `simple_solve`.
* `Transform`, `Malformed`, `Oracle`, `Queue`, `Rounding`, `Loops`, `Basic`: as named.

### By property

| | proved as | method |
|---|---|---|
| C01, C02, C03, C05 | `Props/Solver.lean` | corollaries of `ProblemSolver.run_spec`: for well-formed convex input and sufficient `int` the run returns the minimum (or nothing), for every `fuel` above an explicit bound, polynomial in `n`, the number of pairs and the width of the ranges; for less `fuel` the only possible error is `fuel` |
| C04 | every malformed input, every data type, no convexity | cases of the constructor |
| C06, C07 | documented capacity | bound on potentials (`FlowGap`); C06 needs 0 in every range; C07: two witnesses that the header's capacity is not sufficient otherwise, and the corrected capacity |
| C08 | callbacks that refuse arguments outside their range give the same run | `run_spec` assumes no more |
| C09, C12, C13, C28, C29, C34 | from C01/C02 through the specification | the optimum of the changed problem; both runs return |
| C10 | `reverse`, `merge`, `merge_limits` | the set of potentials and their costs are kept |
| C11 | equality of executions, arbitrary arguments | |
| C14, C15, C16 | `Props/Limits.lean` | binary search; C16 bounds the probes by the bit length |
| C17 | histories of push, pop, clear against a duplicate-free list | invariant |
| C18, C19, C20 | `Props/Structures.lean`, arbitrary histories | `RepE`; C20: the assertion of `cut` fails exactly at roots, that of `set_fa` is passed at roots, fails for a node attached twice in a row, but not at all non-roots (witness) |
| C21, C22 | `Props/Flow.lean` | strong duality; witness for `U = 0`, where the statement of C21 is false |
| C23, C24, C25, C26 | states after each phase, and after each round of `refine` | the invariants; `FlowSteps` |
| C27 | `solve` is a function of the object; witness that `min_cost` is single-use | evaluation in the kernel |
| C30 | all pairs of extended numbers; witnesses for what fails | cases |
| C31 | `bf_solve` computes the optimum; the pair costs need only be `Valley` (`Spec.lean`), not convex | recursion; then C01/C02 |
| C32 | floating-point run = exact run, explicit size bound | `FEmb` |
| C33 | witness; safety for other `n` | evaluation; cases |
| C35 | constructor of `Flow` | loop invariants |
| C36, C37 | witnesses | evaluation in the kernel |
| C38 | one instance, every width of `int` | the loop state after 14 rounds is the same with potentials raised by 8 (evaluated in the kernel for symbolic index); `Drift`, `Width` |
| C39 | relation between two runs | `Width` |
| C41 | ternary search, function `E`; witnesses | induction on the length of the range |
| C42, C43 | `Refine`, `MinCost` of `test/CostScaling.cpp` | invariants; weak and strong duality; witnesses for the fault in `Init` |
| C44 | `simple_solve` computes the optimum | C41, C43 and the splitting of convex functions; with C01, C31 all three programs agree |
| C45, C46 | witnesses | evaluation in the kernel |
| C47 | `TinyGen` makes a problem as intended, no undefined behaviour, ends for the five families of the tests | `Lcg`, `Generator`, `GenWindows` |
| C48 | all random tests pass, for every seed, in exact arithmetic and with `double` | C47, C44, C32, C50, C51 |
| C49 | witness | evaluation in the kernel |
| C50 | floating-point run of `bf_solve` = exact run | `Exact`, `ExactInput`, `ExactOracle`: relation `Sim` between two runs |
| C51 | floating-point run of `simple_solve` = exact run | `ExactCS`, `ExactMin`, `ExactSimple`; bounds of the potentials, of the capacities (their sum for one cost is `2·10^9`) and of the partial sums |
| C52 | the fixed tests pass, and the common value is the optimum | evaluation of both programs with `binary64` in the kernel; the optimum from C31 and an evaluation of the oracle with rationals |
| C53, C55 | `Props/Rounds.lean` | measure `sum over v of (B - relabels of v)(3 out-degree + 1)` plus twice the links plus the roots of trees (`measR`); if all ranges are within `U` of zero, no node is relabelled more than `3n+1` times in the first phase |
| C54 | family of instances | after the first phase the potential difference is about `2(n+1)R`, and one round raises a potential by at most `epsilon/2` |
| C56 | `Props/Amortised.lean` | the auxiliary tree of the path is followed exactly (`SP`): after every link and search it is a list of left children |
| C57 | `Proof/LCTPot.lean`, `LCTSInv`, `LCTForest`, `LCTAmort`, `LCTSizes`, `LCTAmortOps`, `LCTAmortRun` | potential: sum over all nodes of the logarithm of the weight of their auxiliary subtree, the weight of a node being the size of its part of the forest off the path (sizes telescope along a path); the access after a `set_fa` is counted with the old sizes plus one on the new path |
| C58 | `Proof/FlowAmort.lean`, `Proof/FlowTime.lean` | potential: six times that of C57, plus four operations for every linked node; a round makes at most one link and its cuts are paid for by the links. The edges inspected by `choice_operator` are paid for by the positions of the current edges, which are reset only when a potential is raised; that is bounded as in C53. An evaluation of the function of an arc belongs to an inspected edge, or to a link, a cut or the choice of the arc in a round |
| C59 | run with `WrappedDouble` over rounded arithmetic = exact run; the comparisons on multiples of `2 ^ j`; witness for finer costs | `Proof/WrappedFloat.lean`: rounding does not pass a multiple of the last digit, so `a + eps` and `a - eps` stay between `a` and its neighbours; then `FEmb`, whose comparisons need to be exact only on the values which occur |
| C60 | three instances with costs which are not convex | evaluation in the kernel; for the endless loop the run is followed up to a state of the link-cut tree in which a node is its own father (`Stuck`), and this state is shown to be kept by every iteration |
| C61 | run with an integer type = exact run, explicit size bound, for every result of overflow; witness | `Proof/IntData.lean`: `FEmb` with the integers below half the largest value; evaluation in the kernel |
| C62 | witness: one variable with an infinite cost, the run ends with an overflow for every `imax` and enough fuel | `Props/Infinite.lean`: evaluation of three rounds in the kernel, then the invariant `NanFront`; transfer to every width as in C38 |
| C63 | `Proof/SolverTime.lean`, `Proof/RunTime.lean` | C58 for the network which `merge_limits` and `calc` make; the binary searches halve the range in every step; the other loops run over the limits, the pairs or the nodes |
| C64 | `Proof/Safe.lean`, `Proof/SafeFlow.lean`, `Proof/SafeSolver.lean` | a predicate on results (`Safe`: the only errors are `fuel`, `overflow`, `assertFail`) is carried through the whole model; the invariant only speaks of sizes and indices: pointers of nodes are in range, `min` of a child points to a node, the current edge of every node but the one being scanned is within its list, the queue is not popped inside `choice_operator` |
| C65 | `Proof/Closure.lean`, `Proof/ClosureCount.lean` | callbacks as trees of lambdas (`Closure`), whose evaluation counts; removing the counters gives `processOmegas` and `mergeLimits` (`C65_same_limits`). The invariant of the merge loop says for every key how many given limits were merged (`Shape`); the nesting example is a family proved by induction on its size. Limits: the memory and the stack in bytes are not modelled |
| C66 | `Proof/LCTMin.lean`, `Proof/LCTGood.lean`, `Proof/NoAssert.lean`, `Proof/FlowAssert.lean`, `Proof/SolverAssert.lean` | the auxiliary trees represent the forest `Flow::fa` also with arbitrary values (`PRep`: shape only, and `min` points to a node of the subtree), so `get_min_wtrbnr` yields a node with a parent; nodes in the queue have no parent. One case is different: if `b - b == 0` fails for the imbalance `b`, a node is linked a second time, with the same edge (`Twice`); then the assert of `set_fa` does not notice, a cycle of pointers arises and `find_root` never ends (`PRep.setFa_twice`). A failed assert after an `int` overflow is not covered (undefined behaviour precedes it) |
| C67 | `Proof/GenText.lean` | the text is read back from the left: a number ends at the first character which is not a digit, minus or point (`num_cancel`), a list ends where the next line begins differently; decimal numbers determine the number by `Nat.repr_injective`, `Int.repr_injective` of the library of Lean |
| C68 | `Proof/SafeReference.lean`, `Proof/ReferenceAssert.lean` | memory: as C64, with invariants for the arrays of `CostScaling` (the lists of edges of a node end, the targets and partners of edges are in range, the nodes on the stack are in range); assertions: capacities and the excess of the nodes on the stack stay nonnegative, which uses of the arithmetic only that `a - min(a, b) ≥ 0` and `0 < a` implies `0 < a + b` for `b ≥ 0` (`PosArith`); rounded arithmetic (`Rd`) has these properties, and the capacities, differences of slopes of convex values, are nonnegative after rounding. The rounding of `double` is an instance (`doubleRounding`); its largest number is left out. The failures are evaluated in the kernel |
| C69 | two instances with `double` (`Props/ReferenceDouble.lean`) | evaluation of all three programs in the kernel; the optimum by hand |
| C70 | error bound of `bf_solve` with floating-point costs near convex ones (`Props/OracleError.lean`) | `OracleTurn`: the place found by the binary search on nearly convex costs; `OracleError`: the floating-point run and the exact run on the same costs, sums within `k G ((1 + 2^-p)^k - 1)` of each other |
| C71 | evaluations of cost functions by `bf_solve` (`Props/OracleTime.lean`) | `Model/OracleCost`: the functions of `Model/Oracle` with a counter; `OracleCost`: erasure of the counter, and induction over `dfs`: an iteration of its loop leaves `v[1..p]` as they are, so that every node runs through its whole range |
| C72 | steps of `MinCost` and `simple_solve` (`Props/SimpleTime.lean`) | `Model/CostScalingCost`, `Model/SimpleCost`: the same functions with counters; `CSCost`, `SimpleCost`: erasure of the counters, counts of the searches; `CSLoop`: a node is relabelled at most `3 (n - 1) + 1` times because its potential is within `3 (n - 1) ε/2` of the one before; between two relabellings of a node `current_edge` only moves on; a round without a relabelling moves the excess to nodes of lower rank in the graph of admissible arcs, so that the sum of the ranks of the nodes on the stack falls, and a relabelling raises it by at most `n` times the degree plus one |
| C73 | `MinCost` and `simple_solve` end with rounded arithmetic (`Props/SimpleEnds.lean`) | `RoundLoop`, `RoundPhase`: the argument of C72 with integer potentials in multiples of `2 ^ -J`, which rounding does not change, and arbitrary rounded capacities and excesses; of these only signs are used, and that a saturated arc has capacity exactly 0 (`a - a = 0`); the number of relabellings of a node is bounded by the test of `incp` instead of by a path to a node with a deficit; `SimpleEnds`: the searches and the splitting end for all values, and monotone rounding keeps the capacities nonnegative |
| C74 | the invariant of the rounds of `refine` in terms of the arcs (`Props/FlowRounds.lean`) | `FInv`, `AInv`, `RInv` (the invariants behind C23-C26) for the state after `j` rounds; `saturated_iff`: the slope which `q` looks up is the greatest of those left of the difference of the potentials |
| C75 | four witnesses: run with `WrappedDouble` over `binary64` returns nothing / never ends / tree off by `2k / 2^15` / returns the optimum (`Props/Tolerance.lean`) | evaluation in the kernel; `Proof/Loop.lean`: if some rounds reproduce the state with raised potentials the run overflows for every size of `int` (as for C38); the tree: nine operations reproduce the heap but not the forest. The comparisons are between multiples of `2^-15`, 0.27 of which is the least distance to the tolerance, so `a > b` and `b < a` agree |
| C76 | `IsDecimal` and `IsShort` (independent readings of a text with six decimals and of one with six significant digits and perhaps an exponent); same text implies `==`; two witnesses (`Props/Print.lean`) | digits of a number read back (`Nat.ofDigitChars_ten_toDigits`), `nearest_le`, the rounded difference is at most twice the exact one (`round_best`); evaluation in the kernel for the witnesses |
| C77 | `RelaxedFeasible`, `relaxedCost` in `SpecRelaxed.lean`; result is the least relaxed cost (`Props/Relations.lean`) | `Proof/Integral.lean`: with a common denominator `N`, the roundings `A / N ↦ ⌊(A + t) / N⌋`, `t < N`, satisfy the constraints and cost on the average as much as the fractional assignment |
| C78 | `Midway`; result at most the mean | the mean of two optimal assignments is a fractional assignment (`interp_mid`), rounded by C77 |
| C79 | `Problem.scale`, `mirror`, `Near`, `union`; results related accordingly | the sets of costs are related accordingly (`Proof/Relations.lean`), then C01 for both problems |
| C80 | `Problem.fix`, `fixAll` in `SpecRelaxed.lean`; results with one variable fixed: least of them, convexity; all variables fixed (`Props/Local.lean`) | `Proof/Local.lean`: a weighted mean of two assignments is a fractional assignment which costs at most the mean (`mean_relaxed`, from the supporting slopes of a convex cost); with weights `b - x`, `x - a` the fixed variable becomes `x`; rounded as in C77 |
| C81 | `move`, `NotAtEnds`; the result equals the cost iff no move by ±1 improves; wider ranges | the mean of the assignment and a cheaper one, with a small weight, is less than 1/2 away; the roundings of C77 then move variables by 0 or 1 all in one direction (`descent`). For wider ranges the same mean still satisfies the old limits (`widen`) |
| C82 | `mergeLimits`, `calc'`; limits and node limits not merged (`all`) against the merged ones | `mergeLoop_sum`: any quantity which `reverse` keeps and `merge` does not increase; convex costs are largest at an end of the range |
| C83 | `DualFeasible`, `DualValue`, `penalisedAt` in `SpecDual.lean`; `flows` after the phases and after each phase (`Props/Dual.lean`) | weak duality by conservation (`dual_le`); the mean over `t < 2(n+1)` of the rounded penalised costs is at most the dual value plus `m M epsilon / (n+1)` because the arcs are `epsilon`-optimal (`Proof/DualGap.lean`, `dual_gap`), and for `epsilon = 1` some rounding puts every arc on an optimal point (`dual_opt`) |
| C84 | `mk'`, `mergeLimits`, `calc'`, `Flow.mk'`, `Flow.phases` of one run; the rounded `scaling` (`Props/Assign.lean`) | the rounded potentials of C83 cost `v <= valid_cost_max`, so they are feasible (C22); feasible potentials of the merged network give an assignment of the same cost (`front_core` in `Proof/Solve.lean`) |
| C85 | `q`, `ceilDiv` of one edge in any state (`Props/QFloor.lean`) | both amounts are the positive part of a slope of the penalised cost minus the flow, the left slope at `d/N` for the program and the right slope for the paper; optimal flows are exactly those between the two slopes |
| C86 | results of `run` on a problem with different limits (`Problem.restrict` in `SpecRelaxed.lean`, `Props/Lattice.lean`) | correctness (C01) and an exchange of the values of a pair: of two admissible values either move both towards each other by the difference of the `mu_j`, or exchange them (`exchange_pair` in `Proof/Lattice.lean`); least elements by the sum of the values |
| C87 | `initialization` with the resets which the source has as comments (`initializationAll`, `flowMinCostAll` in `Props/Reset.lean`) | the invariant between phases (`PInv`), which a change of the state before each phase may use as long as it keeps it (`PInv.nthG`, `NetInput.phasesG`); a node of a forest without links is alone in its splay tree (`alone`) |
| C88 | the functions of `Flow` with a parameter in place of `q` (`Model/OtherQ.lean`), equal to those of the model when the parameter is `q` (`minCostWith_q`) | evaluation in the kernel with a variable for the surplus of fuel: the third state of the loop of `refine` in the second phase returns after two rounds (`swingCheck_ge`, `swing_core`), so the loop never ends (`whileLoop_stays`); `qPaper` is the amount `paperQ` of C85 |
| C89 | `refineStep` in all rounds of all phases (`Props/Excess.lean`) | the invariant of the loop (`RInv`) and what a round does to the imbalances (`Sent.imb`, `Chosen.imb`, `Stepped.imb`): an amount `x ≥ 0` goes from `p` to the root of its tree; the imbalances add up to 0 because the flow is antisymmetric |
| C90 | `calc'` and `Flow(n, M', U', limits).min_cost()` with other numbers (`Props/Constants.lean`) | C21 for `M'` and `U'`; what a penalty and a threshold need to satisfy (`outcome_of_penalty`); the family `leanArcs`, whose penalised cost at one other point is `M' - k` |
| C40 | `Format.round` against `IsRounded`, which is shown to have exactly one solution | arithmetic |

All claims are full (no `_partial`). Claims that were planned in a stronger form and turned out to be false are proved in the corrected form
together with a witness: C06/C07 (capacity), C20 (`set_fa`), C21 (`U = 0`), C26 (first phase), C32/C37/C38 (floating point), C43 (`epsilon` in `Init`), C44/C45 (bound `10^9`).

### Hypotheses worth knowing

* C01 etc. require convex costs (C60 shows what happens without), and `Capacity imax P`: the corrected capacity of C07, which depends on the distance of the ranges from 0.
* `n + 1 < 2^64`.
* Exact arithmetic, except C32, C36-C40, C48, C50-C52, C59, C61, C62, C64-C66, C68-C71, C72 (the evaluations only), C73. For `double`, C32 is the positive result; C37 and C38 show that it does not extend to arbitrary costs, C62 that costs must be finite.

## 4. Trusted base

* The Lean 4.33.0 kernel. No `native_decide`, no `bv_decide`, no own axioms, no `sorry`. The tactic `kernel_eval` in `Props/Double.lean` proves `a = b` by `Eq.refl`
  which the kernel checks by evaluation; it adds no trust.
* Axioms: `propext`, `Classical.choice`, `Quot.sound` for all property theorems, with exceptions which use fewer:
  `C17_unique_queue`, `C41_ternary_needs_convexity`, `C41_range_overflow`, `C58_counters_only`, `C63_counters_only`, `C64_tree`, `C65_same_limits`, `C68_bf_outcomes`, `C68_simple_memory_safe` (`propext`, `Quot.sound`), `C33_wraparound_reads_out_of_bounds`, `C56_counters_only` (`propext`).
* That the model says what the C++ text says (section 1). The model was executed on 1500 small random instances and agreed with the
  models of both oracles, and the model of the trees on random histories with a naive forest; the C++ program itself was neither built nor run.
* The definitions in `Spec.lean`, `SpecForest.lean`, `SpecRelaxed.lean`, `SpecDual.lean`, `Link.lean` and in the statements themselves.

## 5. Tests against wrong programs

`seeded/LOG.jsonl` lists edits of the model like realistic bugs, made in a copy, and which theorems no longer proved. Theorems were tightened where an edit
which falsifies a claim left the theorem provable. Entries whose claim begins with "control" are edits which falsify no claim; there the
proofs may fail as well, because they follow the structure of the code.
`first_failures` are the declarations with an error, `theorems_failed` the property theorems among them or depending on one of them. So a theorem listed there need not have become false: its proof is gone.

## 6. Comparison of the model with a transcription

The C++ was not run. `crosscheck/port.py` is a second transcription of `src/` and `3rd/lct/LCT.cpp`, into Python with objects and references, made from the C++ text.
`exact.py` compares the result and all five counters of the Lean model (`ProblemSolver.runC`) with it on random instances in exact arithmetic (2200 instances, no difference);
`double.py` compares the model with `binary64` and the transcription with the hardware's double (about 340 instances, no difference; instances on which the transcription
does not end within 2 seconds, see C38, are left out). No theorem depends on this. It is evidence against slips in the model; author and reading of the C++ are the same.
