{"id": "C01", "title": "solve returns the exact optimum", "statement": "If solve() returns a value v, then v is attained by some integer assignment (mu, omega) with l_i<=mu_i<=u_i, l_k<=omega_k<=u_k and mu_i-mu_j<=omega_k for every limit, and no such assignment has smaller total cost sum F_i(mu_i)+sum B_k(omega_k).", "quantifier": "every n, every vector of node limits and pair limits with convex cost functions on their ranges, exact arithmetic", "why_tests_cant": "the set of instances is infinite; the repo's tests compare a brute force on 5 nodes with ranges of width 4", "anchors": ["src/ProblemSolver.cpp: ProblemSolver::solve", "src/ProblemSolver.cpp: ProblemSolver::ProblemSolver", "src/ProblemSolver.cpp: merge_limits", "src/ProblemSolver.cpp: calc", "src/Flow.cpp: Flow::min_cost", "3rd/lct/LCT.cpp"]}
{"id": "C02", "title": "empty result exactly on infeasible instances", "statement": "For well-formed input solve() returns nullopt if and only if no integer assignment (mu, omega) satisfies all the bounds and difference constraints.", "quantifier": "every well-formed instance with convex costs, in both directions", "why_tests_cant": "infeasibility is a statement about all assignments, detected here indirectly by comparing the flow optimum with valid_cost_max", "anchors": ["src/ProblemSolver.cpp: ProblemSolver::solve", "src/ProblemSolver.cpp: ProblemSolver::ProblemSolver", "src/ProblemSolver.cpp: merge_limits", "src/ProblemSolver.cpp: calc", "src/Flow.cpp: Flow::min_cost", "3rd/lct/LCT.cpp"]}
{"id": "C03", "title": "solve terminates", "statement": "The constructor and solve() finish on every well-formed convex instance: every while loop (binary searches, epsilon loop, refine, send, splay, access) exits.", "quantifier": "every well-formed convex instance, every execution state reached", "why_tests_cant": "termination of push-relabel with dynamic trees over real-valued flows depends on an unbounded potential argument", "anchors": ["src/Flow.cpp: refine", "src/Flow.cpp: send", "src/Flow.cpp: Flow::Flow", "3rd/lct/LCT.cpp: splay, access, find_root", "src/ProblemDefine.cpp: partition_point"]}
{"id": "C04", "title": "malformed input is rejected with nullopt", "statement": "If the node vector has the wrong length, a node or pair limit has l>u, a pair index is out of 1..n, i==j, or the tightest lower difference exceeds u, then solve() returns nullopt and nothing is dereferenced out of range.", "quantifier": "every malformed instance (n below the maximal size_t)", "why_tests_cant": "all combinations of the position of the first bad limit and of the kind of defect", "anchors": ["src/ProblemSolver.cpp: ProblemSolver::ProblemSolver", "src/ProblemSolver.cpp: ProblemSolver::solve"]}
{"id": "C05", "title": "no undefined behaviour on any instance", "statement": "Construction plus solve() never reads or writes outside a vector, dereferences a null LCT pointer, calls front/pop on an empty queue, divides by zero, or fails an assert, on every instance with convex costs whose integers fit.", "quantifier": "every instance and every step of the execution", "why_tests_cant": "one bad index at one reachable state is enough; the states are unboundedly many", "anchors": ["src/Flow.cpp", "src/UniqueQueue.cpp", "3rd/lct/LCT.cpp", "src/ProblemSolver.cpp"]}
{"id": "C06", "title": "documented integer capacity suffices when ranges are within U of zero", "statement": "If zero lies in every node range, no pair limit has a negative upper end and the int type can hold 6*(n+1)*bit_ceil((n+1)*U) as ProblemDefine.hpp demands (U the greatest length of a range), no signed overflow occurs in construction and solve().", "quantifier": "every such instance, every intermediate int (potentials, epsilon, differences, binary-search midpoints)", "why_tests_cant": "the potentials' growth over all scaling phases cannot be observed on samples", "anchors": ["src/include/ProblemDefine.hpp: NOTE on int capacity", "src/Flow.cpp: update_scaling, q, Flow::Flow"]}
{"id": "C07", "title": "integer capacity bound for arbitrary ranges", "statement": "The documented capacity is NOT sufficient when ranges lie far from zero (there are instances which satisfy it and overflow, also with the 32-bit int); it is sufficient if U also bounds the distance of the ranges from zero.", "quantifier": "existential counterexample plus every instance for the corrected bound", "why_tests_cant": "the tests only use ranges around zero", "anchors": ["src/include/ProblemDefine.hpp: NOTE on int capacity", "src/Flow.cpp: update_scaling", "src/ProblemSolver.cpp: calc"]}
{"id": "C08", "title": "cost functions are evaluated only inside their declared range", "statement": "The callbacks F_i and B_k are called only with arguments in [l_i,u_i], [l_k,u_k] of the limit they were supplied with.", "quantifier": "every instance, every call made by construction and solve()", "why_tests_cant": "requires all binary searches, merged ranges and all calls in q to stay in range on all executions", "anchors": ["src/ProblemDefine.cpp: pre_processing, min, reverse, merge", "src/Flow.cpp: q, min_cost", "src/ProblemSolver.cpp: calc"]}
{"id": "C09", "title": "order of pair limits is irrelevant", "statement": "Permuting the vector of pair limits does not change the result of solve().", "quantifier": "every instance and every permutation", "why_tests_cant": "factorially many orders, through a std::map and an order-dependent algorithm", "anchors": ["src/ProblemSolver.cpp: merge_limits"]}
{"id": "C10", "title": "parallel and opposite limits combine soundly", "statement": "Several limits on one unordered pair {i,j}, given in either orientation, behave as their conjunction with added costs: the merged limit set has exactly the feasible potentials of the inputs and the same cost; in particular merge returns its error flag exactly when the two ranges do not intersect.", "quantifier": "every multiset of limits", "why_tests_cant": "all multiplicities and orientations", "anchors": ["src/ProblemSolver.cpp: merge_limits", "src/ProblemDefine.cpp: reverse, merge"]}
{"id": "C11", "title": "Mus[0] is ignored", "statement": "Two inputs that differ only in the node-limit vector's entry 0 give the same result, even if that entry has l>u or a function that cannot be called.", "quantifier": "every instance and every pair of entries 0", "why_tests_cant": "all executions must avoid the entry", "anchors": ["src/include/ProblemSolver.hpp", "src/ProblemSolver.cpp"]}
{"id": "C12", "title": "adding constants to costs shifts the optimum", "statement": "Adding a constant c to one cost function adds exactly c to a returned optimum and leaves nullopt unchanged (the feasibility test against valid_cost_max is not fooled by offsets).", "quantifier": "every instance, every limit, every c of either sign", "why_tests_cant": "the infeasibility test compares costs, so offsets could flip it for particular values", "anchors": ["src/ProblemSolver.cpp: calc, solve"]}
{"id": "C13", "title": "more constraints never help", "statement": "Appending a pair limit with nonnegative cost, or shrinking ranges, never decreases a returned optimum and never turns nullopt into a value.", "quantifier": "every instance and every added limit or smaller range", "why_tests_cant": "relation between two unbounded executions", "anchors": ["src/ProblemSolver.cpp: solve"]}
{"id": "C14", "title": "pair cost is relaxed to its best admissible omega", "statement": "After pre_processing, fn(x) for x<=u equals the minimum of the original fn over omega in [l,u] with omega>=x. Instead of convexity it is enough that the values of fn do not decrease any more after a place where they did not decrease.", "quantifier": "every convex function, and every function which first decreases and then does not decrease any more; every range and every x<=u", "why_tests_cant": "all functions and ranges", "anchors": ["src/ProblemDefine.cpp: pre_processing"]}
{"id": "C15", "title": "min() is the minimum over the range", "statement": "OmegaLimit::min() returns the smallest value of fn on [l,u] for convex fn, and for every fn whose values do not decrease any more after a place where they did not decrease.", "quantifier": "every such function and nonempty range", "why_tests_cant": "all functions and ranges incl. plateaus", "anchors": ["src/ProblemDefine.cpp: min"]}
{"id": "C16", "title": "partition_point finds the boundary and probes only the half-open range", "statement": "For a predicate that is true then false on [l,r), partition_point(l,r,pred) returns the first point where it is false (r if none), calls pred only on [l,r), without overflow when r-l fits, in at most bitlength(r-l) probes.", "quantifier": "every range and every monotone predicate", "why_tests_cant": "all sizes", "anchors": ["src/ProblemDefine.cpp: partition_point"]}
{"id": "C17", "title": "UniqueQueue is a FIFO set", "statement": "For every sequence of push/pop/clear, the queue holds each element at most once, push of a present element is a no-op, elements leave in order of their first push since they were last absent, and empty() is accurate.", "quantifier": "every operation history", "why_tests_cant": "histories are unbounded", "anchors": ["src/UniqueQueue.cpp"]}
{"id": "C18", "title": "the link-cut tree behaves like a plain rooted forest", "statement": "For every sequence of find_root, set_fa, cut, get_val, set_val, add_val_way_to_root, get_min_wtrbnr that respects the preconditions, all answers equal those of a naive forest with a value per node; find_root returns the represented root; get_val returns the value.", "quantifier": "every operation history, every forest, every size", "why_tests_cant": "amortised self-adjusting pointer structure with lazy tags; reachable shapes are unbounded", "anchors": ["3rd/lct/LCT.cpp", "3rd/lct/LCT.hpp"]}
{"id": "C19", "title": "get_min_wtrbnr returns the shallowest minimum below the root", "statement": "On a non-root node it returns the least value on the path to, but excluding, the root, together with the node nearest to the root attaining it.", "quantifier": "every reachable heap", "why_tests_cant": "depends on tie-breaking in cached minima after arbitrary rotations", "anchors": ["3rd/lct/LCT.cpp: get_min_wtrbnr, push_up"]}
{"id": "C20", "title": "link-cut operations are memory safe and total", "statement": "No LCT operation dereferences null, leaves the node array, fails an assert or loops forever on any heap reachable through the API with the preconditions met; the assert of cut fails exactly at roots; the assert of set_fa holds at every root and fails if a node is attached twice in a row, but it does not detect all calls at non-roots.", "quantifier": "every operation history", "why_tests_cant": "pointer structure", "anchors": ["3rd/lct/LCT.cpp"]}
{"id": "C21", "title": "Flow::min_cost is the minimum of the penalised problem", "statement": "min_cost() returns the minimum over all integer potentials of the sum of edge costs, each extended outside [l,u] with slope M; this needs U >= 1 and is false for U = 0.", "quantifier": "every edge set with convex costs, slopes within M and U >= 1; existential for the failure with U = 0", "why_tests_cant": "strong duality for all inputs", "anchors": ["src/Flow.cpp: min_cost"]}
{"id": "C22", "title": "infeasible networks exceed valid_cost_max", "statement": "If no potentials satisfy all ranges then min_cost() is at least valid_cost_max+1, otherwise it is at most valid_cost_max (Flow.hpp's comment on M).", "quantifier": "every network in which some range is not a point or which is feasible (ProblemSolver builds no other)", "why_tests_cant": "the threshold separates two infinite families", "anchors": ["src/Flow.hpp: min_cost comment", "src/ProblemSolver.cpp: calc, solve"]}
{"id": "C23", "title": "flow conservation after every phase", "statement": "After each scaling phase every node is balanced, flows are antisymmetric on edge pairs and within [-M,M], no tree link remains and the active queue is empty, so the state that initialization() relies on ('unchanged across iterations') really holds.", "quantifier": "every instance, every phase", "why_tests_cant": "a history invariant: initialization() deliberately omits the resets", "anchors": ["src/Flow.cpp: initialization, refine, push_all_admissible_edge"]}
{"id": "C24", "title": "epsilon-optimality after every phase", "statement": "After the phase with parameter epsilon every edge satisfies the complementary-slackness condition up to epsilon/2.", "quantifier": "every instance, every phase", "why_tests_cant": "invariant of the algorithm", "anchors": ["src/Flow.cpp: refine, update_scaling, q"]}
{"id": "C25", "title": "active nodes are roots; links never form cycles", "statement": "At every step nodes with positive imbalance are exactly those queued and are roots of the dynamic forest; linking never creates a cycle; so the asserts in the LCT hold.", "quantifier": "every execution step", "why_tests_cant": "comment-level claim in Flow.hpp about all states", "anchors": ["src/Flow.hpp: uq", "src/Flow.cpp: send, link, choice_operator"]}
{"id": "C26", "title": "number of relabels per phase is bounded", "statement": "min_cost() runs exactly log2 of the initial epsilon phases. In each phase the potential of a node is raised at most 3n+1 times, in the first phase provided that the ranges are within U of zero, and otherwise by a bound which depends on their distance from zero.", "quantifier": "every instance, every phase", "why_tests_cant": "worst-case bound", "anchors": ["src/Flow.cpp: update_scaling, refine, min_cost"]}
{"id": "C27", "title": "solve() is deterministic and repeatable; Flow is single-use", "statement": "solve() on the same object returns the same result every time, while calling min_cost() twice on one Flow can give a different number (documented single-use).", "quantifier": "every instance; existential for the second part", "why_tests_cant": "relational", "anchors": ["src/ProblemSolver.cpp: solve", "src/Flow.hpp: NOTE"]}
{"id": "C28", "title": "renaming variables does not change the optimum", "statement": "Applying any permutation of 1..n to node limits and pair indices gives the same result.", "quantifier": "every instance and permutation", "why_tests_cant": "n! permutations; the algorithm depends on the numbering", "anchors": ["src/ProblemSolver.cpp: merge_limits", "src/Flow.cpp"]}
{"id": "C29", "title": "translation invariance", "statement": "Shifting every node range by a constant c (with the functions re-parametrised) gives the same result.", "quantifier": "every instance, every c", "why_tests_cant": "the scaling algorithm starts from potentials 0, so executions differ completely", "anchors": ["src/Flow.cpp"]}
{"id": "C30", "title": "WrappedDouble comparisons", "statement": "For every pair exactly one of <, ==, > holds, <= is the negation of >, >= of <, < is transitive and irreflexive; but == is not transitive, so it is no strict weak ordering.", "quantifier": "every pair / triple of values", "why_tests_cant": "all values", "anchors": ["src/include/WrappedDouble.hpp"]}
{"id": "C31", "title": "brute-force oracle agreement", "statement": "For every convex instance with well-formed indices, solve() and the test oracle bf_solve return the same optional.", "quantifier": "every instance", "why_tests_cant": "tests sample 5-node graphs", "anchors": ["test/test.cpp: bf_solve, fast_solve"]}
{"id": "C32", "title": "integrality: exactness in double arithmetic", "statement": "If all cost values are integers, or multiples of one power of two not above 1, and (1 + 2 N G)(2 N (T + W + 2) + 2) + W + 2 is less than 2^52 such units (N the number of limits, G a bound of the costs, W a bound of the ranges, T = ceil(log2(2(n+1)W))), no rounding ever happens and the double computation returns the exact optimum, or nothing exactly if the constraints cannot be met.", "quantifier": "every integer-valued instance below the magnitude bound", "why_tests_cant": "all intermediate values of all executions", "anchors": ["src/include/ProblemDefine.hpp: Data", "src/Flow.cpp", "3rd/lct/LCT.cpp"]}
{"id": "C33", "title": "constructor edge case n = SIZE_MAX", "statement": "With n = size_t(-1) and an empty node vector the length check n+1==Mus.size() passes by wrap-around and the constructor reads Mus[1] out of bounds (undefined behaviour); for every other n the constructor is memory safe.", "quantifier": "existential for the defect; every other n for safety", "why_tests_cant": "nobody tests SIZE_MAX", "anchors": ["src/ProblemSolver.cpp: ProblemSolver::ProblemSolver"]}
{"id": "C34", "title": "independent node costs", "statement": "Without pair limits the result is the sum of the minima of the node costs.", "quantifier": "every n and convex functions", "why_tests_cant": "all sizes", "anchors": ["src/ProblemSolver.cpp: ProblemSolver::solve", "src/ProblemSolver.cpp: ProblemSolver::ProblemSolver", "src/ProblemSolver.cpp: merge_limits", "src/ProblemSolver.cpp: calc", "src/Flow.cpp: Flow::min_cost", "3rd/lct/LCT.cpp"]}
{"id": "C35", "title": "epsilon starts as a power of two above 2(n+1)U", "statement": "The Flow constructor leaves epsilon the least power of two that is at least 2(n+1)U (1 if U=0) and its assert holds; edges are doubled with edge e^1 the reversal of e.", "quantifier": "every n, U and edge list", "why_tests_cant": "all sizes; the doubling loop overwrites the vector in place", "anchors": ["src/Flow.cpp: Flow::Flow"]}
{"id": "C36", "title": "results with Data = WrappedDouble can be off by more than eps", "statement": "If the solver is used with Data = WrappedDouble (tolerance eps = 1e-4), its result can differ from the optimum by more than eps even in exact arithmetic, because slopes below eps count as zero and add up over the range.", "quantifier": "existential", "why_tests_cant": "the tests use integer costs, for which the tolerance is invisible", "anchors": ["src/include/WrappedDouble.hpp", "src/Flow.cpp: push_all_admissible_edge, choice_operator", "src/ProblemDefine.cpp: min"]}
{"id": "C37", "title": "with double the solver can return nullopt on a feasible instance", "statement": "For costs which are not multiples of a common not too small power of two, solve() with Data = double can return nullopt although the constraints can be met: two variables with one possible value each and costs 0.6 and 0.1 suffice. The comparison valid_cost_max < cost does not allow for rounding.", "quantifier": "existential", "why_tests_cant": "all tests with several variables use multiples of 1/4 as costs", "anchors": ["src/ProblemSolver.cpp: solve", "src/include/ProblemDefine.hpp: Data"]}
{"id": "C38", "title": "with double the solver can fail to end", "statement": "With Data = double there are instances on which solve() never returns a value, whatever the width of int: an imbalance which stems from rounding is passed round forever, the potentials grow, and finally int overflows. Two variables, no pairs and one cost other than zero (0.6) suffice.", "quantifier": "existential in the instance, universal in the width of int and the time allowed", "why_tests_cant": "all tests with several variables use multiples of 1/4 as costs; the failure is a loop of some billions of rounds followed by an overflow", "anchors": ["src/Flow.cpp: refine, update_scaling", "src/include/ProblemDefine.hpp: Data"]}
{"id": "C39", "title": "a wider int changes no result", "statement": "If an execution of the constructor and solve() does not overflow int, the same execution with any wider signed integer type ends in the same way with the same result.", "quantifier": "all widths, all inputs (also malformed), all Data types", "why_tests_cant": "the program is built for one width only; the claim relates all widths", "anchors": ["src/Flow.cpp: q, update_scaling, Flow::Flow", "src/ProblemDefine.cpp: reverse, partition_point", "src/ProblemSolver.cpp: calc"]}
{"id": "C40", "title": "the arithmetic of double rounds correctly", "statement": "The operations on double which the code uses return the number of the format nearest to the exact result, of two such numbers the one with the even significand, and infinity from 2^1024 on; comparisons are exact; NaN compares false.", "quantifier": "all operands, all binary formats with at least two digits", "why_tests_cant": "2^128 pairs of operands", "anchors": ["src/include/ProblemDefine.hpp: Data"]}
{"id": "C41", "title": "ternary search of SimpleSolver", "statement": "The ternary search returns the least value of a convex callback on [l,r] and calls it nowhere else; so the function E made from a pair limit gives, for every x up to the end of its range, the least cost from x on. Convexity is needed, and the length of the range must be representable in int (witnesses).", "quantifier": "all convex callbacks, all ranges of representable length; existential for the two failures", "why_tests_cant": "all convex functions on all ranges; the tests only compare final values, on ranges within +-60", "anchors": ["test/SimpleSolver.cpp: Solve (ternary search, E)"]}
{"id": "C42", "title": "Refine halves the error of a circulation", "statement": "CostScaling::Refine turns a circulation which is optimal up to epsilon into one which is optimal up to epsilon/2; it finishes, returns true, no assertion fails and no access is out of bounds.", "quantifier": "all networks without self loops whose sizes int can hold, all circulations and potentials which are epsilon-optimal", "why_tests_cant": "internal invariant; infinitely many networks and flows", "anchors": ["test/CostScaling.cpp: Refine, Discharge, Modify"]}
{"id": "C43", "title": "MinCost finds a circulation of least cost", "statement": "If every negative cost is at least -1 or outweighed by a positive cost, MinCost finishes, returns true and minus the least cost of a circulation, which equals the least slack cost of integral potentials (duality). Without this it is wrong, because Init takes epsilon from the largest cost and not from the largest absolute value: it can return false, and miss a circulation of negative cost.", "quantifier": "all networks without self loops whose sizes int can hold; existential for the failures", "why_tests_cant": "universal over networks; SimpleSolver adds arcs of cost 0 and of both signs such that the fault of Init does not show", "anchors": ["test/CostScaling.cpp: Init, MinCost"]}
{"id": "C44", "title": "simple_solve returns the optimum, so all three programs of the tests agree", "statement": "If the ranges are within R of zero, int can hold 4(2R+1)(n+m), costs are convex and the costs of any two assignments differ by less than 10^9, simple_solve finishes without undefined behaviour or failed assertion and returns the optimum, or nothing exactly if there is no solution. Hence it agrees with solve() and with bf_solve.", "quantifier": "all such problems, exact arithmetic", "why_tests_cant": "universal over problems; the large tests compare the solver with simple_solve only, so a common error would go unnoticed", "anchors": ["test/SimpleSolver.cpp", "test/CostScaling.cpp", "test/test.cpp: simple_solve"]}
{"id": "C45", "title": "simple_solve is wrong for costs of 10^9 and more", "statement": "Without the bound 10^9 on the differences of costs simple_solve can return a value below the optimum, and a value although there is no solution.", "quantifier": "existential", "why_tests_cant": "no test has costs of this size", "anchors": ["test/SimpleSolver.cpp: constant 1e9"]}
{"id": "C46", "title": "the three programs differ on a pair of a node with itself", "statement": "For a pair (i,i) with 0 in its range the problem has an optimum, which bf_solve returns; solve() returns nothing; in simple_solve an assertion fails.", "quantifier": "existential", "why_tests_cant": "the generators never make such a pair", "anchors": ["src/ProblemSolver.cpp: constructor", "test/CostScaling.cpp: Discharge", "test/test.cpp: bf_solve"]}
{"id": "C47", "title": "the generator of the random tests makes what it should", "statement": "For all arguments that make sense, every seed and every state of the random number generator: if TinyGen ends, it has made a problem with n nodes and between n-1 and mlimit pairs of different nodes, without repeated pairs unless allowed, ranges and coefficients within the limits, convex costs; no undefined behaviour (the text buffer is long enough, no overflow, no empty queue). With double the functions return exact values if the limits are small. For the five families of tests it ends for every seed and state. With one node and repeated pairs allowed it may run forever (witness).", "quantifier": "all arguments, seeds, states of the random number generator (2^48 and more)", "why_tests_cant": "2^48 states per family; termination depends on the period of the random numbers", "anchors": ["test/generator.cpp: TinyGen, RandF, PrintFunction", "3rd/generator/gen.h: GenGraph", "3rd/generator/testlib.h: random_t", "test/test.cpp: SmallGen1, SmallGen2, HugeGen1, HugeGen2, HugeGen3"]}
{"id": "C48", "title": "no random test can fail", "statement": "For every seed, every state of the random number generator and each of the five families of random tests: the generator ends and fast_solve, simple_solve and bf_solve return the same on the graph made, namely the optimum or nothing if there is no solution. With double all three programs return the exact optimum there.", "quantifier": "all seeds and states of the random number generator; five families", "why_tests_cant": "each run of the tests tries a few thousand of 2^48 states", "anchors": ["test/test.cpp: random tests", "test/generator.cpp", "src/ProblemSolver.cpp", "test/SimpleSolver.cpp"]}
{"id": "C49", "title": "the seed does not determine the random test", "statement": "TinyGen draws the number of edges before it sets the seed, so the same seed gives different graphs: round 2 of SmallGen1 has 9 edges if run alone at the start of the program, and 10 edges after round 1. A failing round cannot be repeated from its seed.", "quantifier": "existential", "why_tests_cant": "the tests never run a round twice", "anchors": ["test/generator.cpp:42-44"]}
{"id": "C50", "title": "bf_solve with double is exact on small integers", "statement": "For every floating-point format of p binary digits (with sufficient exponents) and every well-formed problem with convex costs of the pairs and sufficient int: if every cost (mu and omega, at every admissible argument) is a multiple of 2^j bounded by G, and (number of nodes + number of pairs) * G < 2^p * 2^j, the reference program bf_solve returns the exact optimum, or nothing exactly if there is no solution.", "quantifier": "all problems with such costs; all formats", "why_tests_cant": "a test has one graph; the rounding of a sum depends on all its parts", "anchors": ["test/test.cpp:13-41", "src/ProblemDefine.cpp"]}
{"id": "C51", "title": "simple_solve with double is exact on small integers", "statement": "For every floating-point format of p binary digits (with sufficient exponents) and every well-formed problem with convex costs and sufficient int: if every cost is a multiple of 2^j (j <= 0) bounded by G, all ranges are within R of zero, two assignments differ by less than 10^9 in cost, 36*(R*(n+1))^2 < 2^p and 4*10^9*(R+1)*(n+m+1) + (n+m+4)*G < 2^(p+j-1), the second reference program simple_solve (splitting of the costs, cost-scaling push-relabel algorithm with fractional potentials, halving of epsilon) returns the exact optimum, or nothing exactly if there is no solution.", "quantifier": "all problems with such costs; all formats", "why_tests_cant": "a test has one graph; the rounding depends on all numbers which occur during push-relabel", "anchors": ["test/SimpleSolver.cpp", "test/CostScaling.cpp", "test/test.cpp:43-50"]}
{"id": "C52", "title": "no fixed test can fail", "statement": "In each of the eleven fixed tests (empty_graph, single_node_graph_1/2, mini_graph_1-5, no_solution_1-3) bf_solve and fast_solve with double end without undefined behaviour and return the same, namely the exact optimum of the problem whose costs are the numbers which the callbacks return; nothing exactly if there is no solution, which is so for mini_graph_5 and no_solution_1-3. In single_node_graph_2 the numbers are not integers and the callback rounds.", "quantifier": "the eleven inputs; all feasible assignments of each", "why_tests_cant": "the tests only compare the two programs; that the common value is the optimum of the problem is not tested", "anchors": ["test/test.cpp:62-265"]}
{"id": "C53", "title": "bound on the rounds of each phase", "statement": "In a network with n+1 nodes and m arcs the loop of refine takes at most (3n+1)(6m+n+1)+4m+n+1 rounds in every phase but the first, and also in the first if all ranges are within U of zero; in general the first phase takes at most (2nR+n+1)(6m+n+1)+4m+n+1 rounds, where R bounds the distance of the ranges from zero. (J is the number of rounds: the queue is empty after J rounds and not before.)", "quantifier": "all networks with convex costs and sufficient int, all phases", "why_tests_cant": "a test observes the time of one input; the bound concerns all of them", "anchors": ["src/Flow.cpp: refine", "src/Flow.cpp: send", "src/Flow.cpp: Flow::min_cost"]}
{"id": "C54", "title": "the running time depends on the distance from zero", "statement": "The number of rounds is not bounded in terms of the number of nodes and pairs and the length of the ranges: for one variable with the range [R, R+1], no pairs and cost zero, solve() needs at least 2R rounds of one loop before it returns 0; with 32-bit int, R can be 2^26-1.", "quantifier": "all R (lower bound); hence negation of a universal bound", "why_tests_cant": "all ranges in the tests are close to zero", "anchors": ["src/Flow.cpp: Flow::Flow (epsilon)", "src/Flow.cpp: refine", "src/ProblemSolver.cpp: calc"]}
{"id": "C55", "title": "polynomial time when zero is in the ranges", "statement": "If zero is in the range of every variable and no upper limit of a pair is negative, and int has the documented capacity, no loop takes more than (3n+1)(6(|pairs|+n)+n+1)+4(|pairs|+n)+n+2+clog2((n+1)U)+log2(2 imax)+6 rounds, and the optimum is returned: U enters only through its number of bits.", "quantifier": "all well-formed convex instances with zero in the ranges", "why_tests_cant": "a test observes the time of one input", "anchors": ["src/Flow.cpp: refine", "src/ProblemSolver.cpp: solve", "src/include/ProblemSolver.hpp"]}
{"id": "C56", "title": "find_root of the link-cut tree does not take logarithmic time", "statement": "find_root walks to the left end of the auxiliary tree without splaying it, and push_down_from_root is recursive. Linking m+1 fresh nodes one below the other, each link followed by find_root as in Flow::link and Flow::send, makes m(m+1)/2 iterations of the loop in find_root, and afterwards push_down_from_root at node 0 recurses more than m deep; more than n nested calls cannot occur on n nodes. Hence there is no constant C such that all sequences of valid operations on n nodes take at most C (operations + n)(log2 n + 1) steps.", "quantifier": "all m (lower bound); hence negation of a universal bound", "why_tests_cant": "an asymptotic statement about all sizes; the tests have few nodes and do not measure time", "anchors": ["3rd/lct/LCT.cpp:7-12", "3rd/lct/LCT.cpp:89-93", "src/Flow.cpp: link, send"]}
{"id": "C57", "title": "the restructuring of the link-cut tree takes logarithmic amortised time", "statement": "Take n fresh nodes and any sequence of operations with their preconditions met, in which every set_fa(x), unless it is the last operation, is followed at once by find_root, cut, add_val_way_to_root or get_min_wtrbnr at x (as in src/Flow.cpp). The calls of rot and of push_down_from_root and the iterations of the loop of access number at most 42 log2(n+1) + 11 per operation on average over the sequence; the loops of find_root and get_min_wtrbnr make at most n iterations per operation.", "quantifier": "all n, all sequences of operations", "why_tests_cant": "amortised bound over all sequences of operations and sizes; no test measures time", "anchors": ["3rd/lct/LCT.cpp:7-124", "src/Flow.cpp: link, send"]}
{"id": "C58", "title": "running time of the phases of Flow::min_cost", "statement": "Take a network with n+1 nodes and m arcs. Let k = clog2(2(n+1)U) be the number of phases, R a bound on the distance of the ranges from zero, and b = k(3n+1) if R <= U, and 2nR+n+1+(k-1)(3n+1) otherwise. The whole loop of min_cost takes at most b(6m+n+1)+k(4m+n+1) rounds of the loop of refine. For each round the link-cut tree makes, on average, at most 9(42 log2(n+2)+11) calls of rot and push_down_from_root and iterations of the loop of access, and at most 3(n+1) iterations of the loops of find_root and get_min_wtrbnr. All other loops (over the edges of a node in choice_operator and update_scaling, over all nodes, and over all edges) make at most 4mb+k(4m+3n+3) iterations more than there are rounds. The function of an arc is evaluated at most twice for each of these iterations and four times for each round.", "quantifier": "all networks with convex costs and sufficient int", "why_tests_cant": "a bound on the time for all inputs; the tests do not measure time", "anchors": ["src/Flow.cpp:30-36", "src/Flow.cpp: refine", "src/Flow.cpp: choice_operator", "src/Flow.cpp: send", "3rd/lct/LCT.cpp"]}
{"id": "C59", "title": "WrappedDouble: exact on multiples of 2^-13, not on finer costs", "statement": "For every floating-point format of p binary digits whose number nearest to 1e-4 is positive and at most 2^j - 2^i (i < j <= 0): the comparisons ==, <, <=, >, >= of WrappedDouble, which round a + eps and a - eps, agree with the exact ones for all multiples of 2^j below 2^(p+i). If all costs are such multiples bounded by G, and (1+2NG)(2N(T+W+2)+2)+W+2 as in C32 is less than 2^(p+i), the solver with Data = WrappedDouble returns the exact optimum, or nothing exactly if there is no solution. For double this includes integer costs (bound 2^52, as without the wrapper) and multiples of 2^-13 (bound 2^37). It fails for multiples of 2^-14: for one variable on [0,7] with cost -x/2^14 half the optimum is returned.", "quantifier": "all well-formed convex problems with such costs; all formats; existential for the witness", "why_tests_cant": "the tests use plain double; the numbers which are compared depend on the whole run", "anchors": ["src/include/WrappedDouble.hpp:27-38", "src/include/WrappedDouble.hpp:47", "src/include/ProblemDefine.hpp:8-15", "src/ProblemSolver.cpp", "src/Flow.cpp", "3rd/lct/LCT.cpp"]}
{"id": "C60", "title": "costs which are not convex: wrong values, no value, no end", "statement": "The program does not check that the costs are convex. If they are not, then with exact arithmetic and sufficient int: the result can be a number which is not the cost of any assignment (one variable with costs 1, 2, 0: result 1/2, optimum 0); the result can be empty although there is a solution; and the program need not end: for two variables, one fixed and one with costs 0, 2, 0, two nodes of the link-cut tree become linked to each other, after which the loop of splay never ends, whatever the size of int.", "quantifier": "existential (three instances), all sizes of int", "why_tests_cant": "the tests only use convex costs; an endless loop cannot be observed by a test that ends", "anchors": ["src/Flow.cpp: q, link, send", "3rd/lct/LCT.cpp:95-124", "src/ProblemSolver.cpp: solve"]}
{"id": "C61", "title": "integer types as Data", "statement": "If Data is a signed integer type, at least as wide as int, and all costs are integers of absolute value at most G, the solver returns the exact optimum, or nothing exactly if there is no solution, whenever 2((1+2NG)(2N(T+W+2)+2)+W+2) is a value of the type (N limits, ranges within W, T = ceil(log2(2(n+1)W))). The result does not depend on what overflowing operations return, so no overflow influences it; the division by 2 in min_cost is exact. It is not enough that the costs and the optimum are values of the type: min_cost adds every cost twice, and with 32 bits and the single cost 2^30 the result is -2^30 (arithmetic modulo 2^32).", "quantifier": "all well-formed convex problems with integer costs, all integer types, all results of overflow; existential for the witness", "why_tests_cant": "the tests use double only", "anchors": ["src/include/ProblemDefine.hpp:6-15", "3rd/lct/LCT.hpp:9", "src/Flow.cpp:36-45", "src/ProblemSolver.cpp", "3rd/lct/LCT.cpp"]}
{"id": "C62", "title": "an infinite cost: the program does not end", "statement": "With Data = double a value may not be forbidden by the cost +inf. There is an instance with a single variable and no pairs (costs +inf, 1, 2), convex also at the infinite value and with the finite optimum 1, with which the program does not end: the first push sends an infinite amount, a later one subtracts infinities, and an imbalance which is not a number is never 0. Whatever the size of int, the loop of refine goes on until a potential overflows. With 1000000 instead of +inf the program returns the optimum.", "quantifier": "existential; all sizes of int", "why_tests_cant": "the tests only use finite costs; an endless loop cannot be observed by a test that ends", "anchors": ["src/Flow.cpp:73-78", "src/Flow.cpp: q, send", "src/ProblemSolver.cpp: calc", "src/include/ProblemDefine.hpp:6-15"]}
{"id": "C63", "title": "running time of the whole solver", "statement": "ProblemSolver(n, Mus, Omegas).solve() with p pairs, all ranges of length at most W and within W of zero, m = p+n, k = clog2(2(n+1)W), b = 2nW+n+1+k(3n+1); if zero is in every range of a variable and no upper limit of a pair is negative, b = k(3n+1), so that W enters through its logarithm only. The loop of refine takes at most b(6m+n+1)+k(4m+n+1) rounds in all; per round the link-cut tree makes on average at most 9(42 log2(n+2)+11) steps of restructuring and 3(n+1) steps of find_root and get_min_wtrbnr; all other loops of the program make at most 4mb+k(4m+3n+4)+3n+1+p(3+log2(imax)+1)+m(6+3(log2(W)+1)) iterations more than there are rounds. The functions of limits are evaluated at most 6 rounds + 2(4mb+k(4m+3n+3)) + 2p(log2(imax)+1) + m(7+6(log2(W)+1)) times.", "quantifier": "all well-formed convex problems with sufficient int", "why_tests_cant": "a bound on the time for all inputs; the tests do not measure time and do not count the calls of the callbacks", "anchors": ["src/ProblemSolver.cpp", "src/ProblemDefine.cpp", "src/Flow.cpp", "3rd/lct/LCT.cpp"]}
{"id": "C64", "title": "memory safety whatever the costs and the arithmetic", "statement": "Let Data be any type with the operations the program uses, with any results of these operations (rounding, NaN, infinities, wrap-around), let the costs be any functions which can be called on their ranges (not necessarily convex), and let the limits be arbitrary, also malformed (n < SIZE_MAX). Then ProblemSolver(n, Mus, Omegas).solve() returns, or goes on for ever (an endless recursion included), or an int overflows, or an assert of the program fails. Until then no index is out of bounds, no null pointer is followed, front and pop are not called for an empty queue, no callback is called outside its range, and nothing is divided by zero. Likewise for every sequence of operations on existing nodes of the link-cut tree, also if it closes a cycle, links a node which has a parent, or cuts a root.", "quantifier": "all types of Data, all callbacks, all inputs with n < SIZE_MAX, all sizes of int; all sequences of operations of the tree", "why_tests_cant": "the tests use convex costs and well-formed limits; out-of-bounds accesses of a vector need not be noticed in a test", "anchors": ["src/Flow.cpp", "src/ProblemSolver.cpp", "src/ProblemDefine.cpp", "src/UniqueQueue.cpp", "3rd/lct/LCT.cpp"]}
{"id": "C65", "title": "function objects of merged limits: nested calls and copies", "statement": "pre_processing, reverse and merge wrap std::function objects into lambdas which hold copies of them. The limit merged from k given limits on the same two nodes is a function object which, whenever it is evaluated, calls k callbacks of the caller, nests k+1 or k+2 calls, and calls between 3k-1 and 4k-1 function objects; the limits of the nodes are the callbacks themselves. The loops of the constructor and of merge_limits copy at most 2p^2+6p function objects for p given limits on pairs, and at least 3k(k+1)/2 if k of them are on the same two nodes (and merge_limits returns a value). Hence the recursion depth is not bounded: for every d, two nodes and d costless limits on them lead to an evaluation which nests more than d calls. With these objects the merged limits are those of the model in which a callback is a function.", "quantifier": "all inputs, all types of Data; all d", "why_tests_cant": "the tests have few limits on the same pair; the growth of the stack and of the copies is not observed", "anchors": ["src/ProblemDefine.cpp:18-52", "src/ProblemSolver.cpp:28-38", "src/ProblemSolver.cpp:61-87"]}
{"id": "C66", "title": "no assert of the program can fail", "statement": "Let Data be any type with the operations the program uses, with any results of these operations (rounding, NaN, infinities, wrap-around), let the costs be any functions (not necessarily convex), and let the limits be arbitrary, also malformed. Then, as long as no int overflows, no assert in src/Flow.cpp, src/ProblemDefine.cpp or 3rd/lct/LCT.cpp fails during ProblemSolver(n, Mus, Omegas).solve(): a node which is linked has no parent, a node which is cut has one, limits are merged only if they concern the same nodes, and epsilon/2/(n+1) >= U. Together with C64: the program returns, or goes on for ever, or an int overflows; nothing else can happen.", "quantifier": "all types of Data, all callbacks, all inputs, all sizes of int", "why_tests_cant": "the tests use convex costs and exact or nearly exact arithmetic; for other costs the asserts depend on every earlier step of the run", "anchors": ["src/Flow.cpp:12-14", "src/Flow.cpp: link, cut, send", "src/ProblemDefine.cpp:49-50", "3rd/lct/LCT.cpp:16", "3rd/lct/LCT.cpp:22"]}
{"id": "C67", "title": "the text printed for a random test determines the test", "statement": "TinyGen describes the graph it makes in a text (info), which a failing test prints. For all arguments that make sense, all seeds and all states of the random number generator, also different ones: two graphs with the same text are equal, the costs included, because the coefficients are multiples of 1/4 and printed with two decimals. Graph::prettyPrint prints this text if there is one; otherwise what it prints determines the numbers of nodes and edges, the ranges and the ends of the edges, but not the costs: the fixed tests mini_graph_1 and mini_graph_2 are printed alike, and their optima are -3 and 3.", "quantifier": "all arguments, seeds, states of the random number generator; all graphs; existential for the last part", "why_tests_cant": "no test reads the text; all pairs of graphs are concerned", "anchors": ["test/generator.cpp:21-26", "test/generator.cpp:71-104", "test/Graph.cpp:8-34", "test/test.cpp:104-138"]}
{"id": "C68", "title": "the reference programs of the tests: memory and assertions", "statement": "Let Data be any type with the operations used, with any results of these operations, and let the costs be any functions which can be called on their ranges. Then bf_solve (with nonempty ranges of the pairs) returns, or goes on for ever, or an int overflows; simple_solve returns, or goes on for ever, or an int overflows, or one of its two assertions (excess[u] > 0) fails: no index is out of bounds, no container is empty when its top is taken, no callback is called outside its range. If the values of the costs are convex with slopes up to the constant M = 10^9 and no pair joins a node to itself, these assertions hold, however the results of the operations are rounded (rounding monotone and symmetric, no infinities). They can fail if the costs are not convex, even in exact arithmetic; and with double they can fail for linear costs: with 0.6*mu on [-1,-1] and 0.7*mu on [4,8] simple_solve aborts, because the slopes of the rounded products decrease, while bf_solve and the solver return the optimum.", "quantifier": "all types of Data, all callbacks, all inputs with indices in range, all sizes of int; all roundings; existential for the failures", "why_tests_cant": "the random tests use multiples of 1/4, for which no operation rounds; out-of-bounds accesses of a vector need not be noticed in a test", "anchors": ["test/CostScaling.cpp:53-78", "test/CostScaling.cpp", "test/SimpleSolver.cpp", "test/SimpleSolver.hpp:7", "test/test.cpp:11-50"]}
{"id": "C69", "title": "simple_solve with double is wrong for costs such as 0.1*mu", "statement": "The size condition of C51 on the second reference program (costs are multiples of a power of two) cannot be dropped. With double there are well-formed instances with two variables, one pair and linear costs on which (a) simple_solve reports that there is no solution although the optimum is 0 (cost 0.1 per unit), because the result of the network algorithm is off by 2*10^-8 and exceeds the sum of the greatest costs; (b) simple_solve returns 0 although the only solution costs more than 10^8, because the rounded capacities 10^9 - c do not balance, MinCost returns false, and its flag is ignored. On both, bf_solve and the solver return the exact optimum.", "quantifier": "existential (two instances)", "why_tests_cant": "the random tests only use multiples of 1/4, with which nothing is rounded (C48, C51)", "anchors": ["test/SimpleSolver.cpp:93", "test/SimpleSolver.cpp:110-113", "test/CostScaling.cpp:74-76", "test/CostScaling.cpp: MinCost", "test/SimpleSolver.hpp:7"]}
{"id": "C70", "title": "error of bf_solve with double on arbitrary costs", "statement": "Let the callbacks return floating-point numbers of p digits which differ by at most delta from convex costs (for the nodes: from any costs) and are bounded by G; let N = n + m be the number of costs with 2N <= 2^p, let 2NG be below the overflow threshold, and let W be the greatest length of a pair range. Then bf_solve finishes without undefined behaviour, returns nothing exactly if the problem with the exact costs has no solution, and otherwise a number which differs from the optimum of the exact costs by at most 2 N^2 G / 2^p + N delta + 2 m W delta. The last term is needed: for the cost 2^53 - x/2 on [0,1000], given by callbacks which return the nearest double, the result is too large by 328, since the binary search of pre_processing stops at a place where the rounded cost does not decrease.", "quantifier": "all problems, all roundings of the costs within delta, all formats; existential for the witness", "why_tests_cant": "a test has one graph with exact costs; the rounding errors depend on all costs and on the order of the additions", "anchors": ["test/test.cpp:13-41", "src/ProblemDefine.cpp: pre_processing", "src/include/ProblemDefine.hpp:15"]}
{"id": "C71", "title": "running time of bf_solve", "statement": "The comment at bf_solve says O(U^n * m). Let node i have w_i values, let there be m pairs. Whatever the costs and the arithmetic, if bf_solve returns, it has evaluated cost functions at least S = sum over j <= n of w_1...w_j times and at most S + m w_1...w_n + 2 (sum over the pairs of the number of bits of u-l) times; if no assignment violates a pair it is at least S + m w_1...w_n. With w_i <= U and U >= 2 there are at most (m+2)U^n evaluations outside pre_processing, as the comment says; for U = 1 the comment is not right: n nodes with one value each and one pair need more than n evaluations. Under the hypotheses of C31 bf_solve returns the optimum after at most that many evaluations.", "quantifier": "all inputs, all types of Data; all constants C for the last part", "why_tests_cant": "a bound on the time for all inputs; the tests do not count the calls of the callbacks", "anchors": ["test/test.cpp:12-41", "src/ProblemDefine.cpp: pre_processing"]}
{"id": "C72", "title": "running time of MinCost and simple_solve", "statement": "CostScaling::MinCost on n nodes and a arcs, C the largest cost (or 1), under the hypotheses of C43: it calls Refine exactly floor(log2(C n))+1 times. One Refine relabels a node at most 3(n-1)+1 times, takes at most (3(n-1)+1)(2a+n)n+n^2 rounds of the loop over the stack, and its loops over the edges of a node make at most (3(n-1)+3)2a iterations more than there are rounds (current_edge is only reset by Relabel). simple_solve, all ranges within R of zero, m pairs, under the hypotheses of C44: it returns the optimum, or nothing exactly if there is no solution, after O((n + m log R) R) evaluations of costs (explicit constants; this bound holds for every type of Data and all costs), at most L = floor(log2((R+1)(n+1)))+1 calls of Refine, and at most L((3n+1)(2A+n+1)(n+1)+(n+1)^2) rounds with A = 2(2R+1)(n+m). The comment O(n * m * U * log^2) at simple_solve is met by the evaluations; for the rounds the bound proved is larger by a factor of about n.", "quantifier": "all networks and all problems within the stated limits; all types of Data for the evaluations", "why_tests_cant": "a bound on the time for all inputs; the tests do not measure time", "anchors": ["test/CostScaling.cpp", "test/SimpleSolver.cpp", "test/test.cpp:42-50"]}
{"id": "C73", "title": "simple_solve ends however its arithmetic is rounded", "statement": "CostScaling::MinCost on n nodes, a arcs with nonnegative capacities and costs up to R >= 1 ends, whatever the capacities are and however the results of the operations on them are rounded, so long as the multiples of 2^-J up to (12n+3)R, where Rn < 2^J, are not changed by rounding: it returns after at most J calls of Refine, J n(6n+1) calls of Relabel and J((6n+1)(2a+n)n+n^2+1) rounds. simple_solve, if the rounded costs are convex with slopes up to its constant 10^9 and int is large enough, neither goes on for ever nor fails an assertion nor has undefined behaviour, with the number of evaluations of C72 and J((6(n+1)+1)(2A+n+1)(n+1)+(n+1)^2+1) rounds at most, A = 2(2R+1)(n+m). For double (without its largest number) this holds if 36 (R(n+1))^2 < 2^53. So simple_solve may be wrong on such costs (C69), but unlike the solver (C38) it always returns.", "quantifier": "all roundings which are monotone and idempotent and symmetric, all networks and all problems within the stated limits", "why_tests_cant": "termination for all inputs; the tests use costs on which double is exact", "anchors": ["test/CostScaling.cpp", "test/SimpleSolver.cpp"]}
{"id": "C74", "title": "the state between the rounds of refine", "statement": "Before every round of the loop of refine, in every phase, there is a flow f on the arcs, at most M in absolute value, such that: imbalances[v] is what flows into v minus what leaves it; f and the potentials scaling/(2(n+1)) satisfy complementary slackness up to epsilon/2; q(e) is the least y >= 0 for which the edge e with flow flows[e]+y is not admissible, as the comment at q says (no slope of its cost left of the difference of the potentials exceeds the flow); if a node v has a parent, its current edge e goes from v to the parent, q(e) > 0, the value x of v in the link-cut tree is the least amount which makes e not admissible, and f(e) = flows[e] + (q(e) - x), as the comments at link and cut say; on all other arcs flows is f; flows[e^1] = -flows[e]; the edges before the current edge of a node are not admissible (current_edge[v] is an index into G[v], not an e_id as its comment says).", "quantifier": "all networks with convex costs and sufficient int, all phases, all rounds", "why_tests_cant": "the state inside min_cost is private; the flow on linked edges is stored nowhere", "anchors": ["src/Flow.hpp:40-70", "src/Flow.cpp: q, link, cut, send", "src/Flow.cpp: refine"]}
{"id": "C75", "title": "WrappedDouble on costs finer than its tolerance: no value, no end, wrong values in the tree", "statement": "With Data = WrappedDouble, whose comparisons ignore differences up to eps = 1e-4, there are instances with convex costs which are multiples of 2^-15 (nothing is rounded, and with double the solver returns the optimum) on which the solver (a) returns nothing although the constraints can be met: one variable which is -2 at no cost or -1 at cost 3/2^15; (b) does not end, whatever the size of int: two variables on [0,2], no pairs; the loop of refine goes on until a potential overflows. (c) push_down keeps a pending summand with |add| <= eps, and rot then moves subtrees under and away from the node, so that the summand reaches the wrong nodes: for every k there is a sequence of valid operations on three nodes after which get_val returns 0 and the value is -2k/2^15. (d) On the instances with costs 0.6 and 0.1 on which double fails (C37, C38) WrappedDouble returns the optimum up to one rounding.", "quantifier": "existential (instances); all k for the tree; all sizes of int", "why_tests_cant": "the tests use plain double; an endless loop cannot be observed by a test that ends", "anchors": ["src/include/WrappedDouble.hpp:27-38", "src/include/WrappedDouble.hpp:47", "3rd/lct/LCT.cpp:81-87", "src/Flow.cpp: refine", "src/ProblemSolver.cpp: solve"]}
{"id": "C76", "title": "the texts of WrappedDouble", "statement": "prettyPrint writes a finite number as a decimal with exactly six digits after the point which differs from the number by at most half a millionth. If two values (binary64, also infinities and NaN) have the same text, then == holds for them, and if they are finite they differ by at most a millionth; so whenever == fails the two printed texts differ. The converse is false: 0 and 0.00005 are equal for == and printed differently. operator<< writes a finite number with at most six significant digits, without zeros at the end of the fraction, and the number written differs from the value by at most half a unit of its sixth digit; so it does not have the property: 1234567 and 1234568 are not equal for == and both are written as 1.23457e+06.", "quantifier": "all values of the type; existential for the last two parts", "why_tests_cant": "no test prints a WrappedDouble; the claim is about all pairs of values", "anchors": ["src/include/WrappedDouble.hpp:27-30", "src/include/WrappedDouble.hpp:40-43", "src/include/WrappedDouble.hpp:47"]}
{"id": "C77", "title": "the result is also the optimum over fractional assignments", "statement": "If the variables may be arbitrary rational numbers within the limits and every cost is continued linearly between the integers, the least cost is still what solve() returns, and solve() returns nothing exactly if no rational assignment satisfies the constraints. So for piecewise linear costs with breaks at integers the program solves the continuous problem.", "quantifier": "all well-formed convex problems with sufficient int, all rational assignments", "why_tests_cant": "the reference programs only try integers; there are infinitely many rational assignments", "anchors": ["src/ProblemSolver.cpp: solve", "src/Flow.cpp: min_cost"]}
{"id": "C78", "title": "the result is a convex function of the limits", "statement": "Take two problems with the same convex costs and different limits (of variables and of pairs), and a third whose limits are midway between theirs or wider. If both have a solution so has the third, and its result is at most the mean of the two results. For example the results for upper limits k-1, k, k+1 of one variable satisfy 2 r(k) <= r(k-1) + r(k+1).", "quantifier": "all triples of well-formed convex problems with such limits and sufficient int", "why_tests_cant": "a relation between three runs, for all inputs", "anchors": ["src/ProblemSolver.cpp", "src/Flow.cpp"]}
{"id": "C79", "title": "scaling, mirroring, perturbing and joining problems", "statement": "In exact arithmetic: multiplying all costs by a > 0 multiplies the result by a. Changing the sign of all mu (limits and costs accordingly, ends of the pairs exchanged) does not change the result. Changing every cost by at most delta changes the result by at most (n + number of pairs) delta, and does not change whether there is one. Two problems put side by side in one call give the sum of the two results, and nothing if one of them has no solution.", "quantifier": "all well-formed convex problems with sufficient int, all a, delta", "why_tests_cant": "relations between runs on different inputs, for all inputs; no test compares two inputs", "anchors": ["src/ProblemSolver.cpp", "src/Flow.cpp"]}
{"id": "C80", "title": "an optimal assignment can be found with the solver", "statement": "solve() returns the optimum but no assignment. Give one variable the value x, that is the range [x,x], and let r(x) be the result. Then the result of the problem is the least r(x), so a value x with r(x) equal to the result exists and can be kept while the next variable is treated; when all variables have values and the last result is v, these values (with suitable omega) are an assignment which satisfies the constraints and costs v. Moreover r is convex: the x for which r(x) exists form an interval, and (b-a) r(x) <= (b-x) r(a) + (x-a) r(b) for a < x < b, so the place where r stops decreasing, which a binary search finds, is a minimum.", "quantifier": "all well-formed convex problems with sufficient int, all variables, all values", "why_tests_cant": "relations between many runs, for all inputs; no test looks for an assignment", "anchors": ["src/include/ProblemSolver.hpp:19-21", "src/ProblemSolver.cpp", "src/Flow.cpp"]}
{"id": "C81", "title": "a local test of optimality, and limits which do not bind", "statement": "An assignment which satisfies the constraints costs exactly what solve() returns if and only if it cannot be improved by adding 1 to some of the mu, nor by subtracting 1 from some of them (the omega may change arbitrarily). If some assignment which costs what solve() returns is not at an end of any range that is made wider (ranges of variables and of pairs), the result with the wider ranges is the same.", "quantifier": "all well-formed convex problems with sufficient int, all assignments, all wider ranges with convex costs", "why_tests_cant": "the local test replaces a comparison with all assignments; the second part relates runs on different inputs", "anchors": ["src/ProblemSolver.cpp", "src/Flow.cpp"]}
{"id": "C82", "title": "merging the limits before calc does not increase its values", "statement": "The comment at calc says that computing valid_cost_max, M and U after merge_limits has merged parallel limits may make them smaller. For all limits with convex costs for which merge_limits returns a value, each of the three values computed from the merged limits is at most the value computed from all the limits of the pairs and the nodes without merging; there is an instance where valid_cost_max and M become strictly smaller.", "quantifier": "all well-formed problems with convex costs and sufficient int; existential for the last part", "why_tests_cant": "calc is private and no test compares its values; the claim is about all inputs", "anchors": ["src/include/ProblemSolver.hpp:27-32", "src/ProblemSolver.cpp:61-99"]}
{"id": "C83", "title": "the flows are an optimal dual solution; the gap after each phase", "statement": "When the loop of min_cost has ended, the vector flows is a circulation with at most M units on each arc, and among all such circulations it has the largest value of the dual problem, the sum over the arcs of the least B(x) - f x; min_cost returns this value. If h is added to the difference of potentials at the arcs, every penalised cost is at least the result plus the sum of flow times h. For some t < 2(n+1) the potentials floor((scaling + t) / (2(n+1))) have a penalised cost equal to the result. Already after each phase the dual value d of flows is at most the result, and for some t < 2(n+1) the rounded potentials cost at least the result and at most d + m M epsilon / (n+1), where m is the number of arcs and epsilon the value after the phase.", "quantifier": "all networks within the capacity condition of C21, all potentials, all circulations, all phases", "why_tests_cant": "the tests compare returned values only; flows, potentials and lower bounds of all alternatives are never looked at", "anchors": ["src/Flow.cpp:30-46", "src/Flow.cpp: q, add_flow_of_edge", "src/Flow.hpp: flows, scaling, epsilon"]}
{"id": "C84", "title": "an optimal assignment can be read off the final potentials", "statement": "solve() returns the least cost only. If it returns a value v and some variable has more than one admissible value, then after the loop of min_cost there is t < 2(n+1) such that the values mu_i = floor((scaling[i] + t) / (2(n+1))) - floor((scaling[0] + t) / (2(n+1))) satisfy the constraints with suitable omegas and cost exactly v. So an optimal assignment needs no further search beyond 2(n+1) candidates.", "quantifier": "all well-formed problems with convex costs within the capacity, with a variable whose range is not a single value", "why_tests_cant": "the tests never look at the potentials, and no returned value depends on their final rounding", "anchors": ["src/ProblemSolver.cpp:42-59", "src/Flow.cpp:30-46", "src/Flow.hpp: scaling"]}
{"id": "C85", "title": "rounding in Flow::q: the paper's floor and the code's ceil - 1", "statement": "The comment in q says that the paper uses floor where the code uses ceil - 1, that both meet the demands, and that the code avoids pushing flow of price zero when the quotient is an integer in [l,u]. For an edge with flow f, |f| <= M, and potentials whose difference is d in units of 1/(2(n+1)): q(e) is nonnegative and at most the paper's amount; if pushing some amount forwards makes the edge optimal for these potentials, q(e) is the least and the paper's amount the greatest such amount; the two differ only if d/(2(n+1)) is an integer x in [l,u], and then x minimises B(x) - g x over [l,u] for every flow g between the two results, so the flow left out has price zero.", "quantifier": "all states and edges with a convex cost whose slopes are at most M, flows at most M and potentials whose difference and 2(n+1) fit into int", "why_tests_cant": "the amounts which are pushed through single edges do not appear in the returned value", "anchors": ["src/Flow.cpp:128-140"]}
{"id": "C86", "title": "optimal assignments under different limits of the variables", "statement": "For two sets of limits of the variables, let meet and join be the sets with the smaller and the larger of the two values for every limit. If both problems have a result, so have meet and join, and the results for meet and join add up to at most the sum of the two results (the result is submodular in the limits). If no limit of the second set is below that of the first, then the least of an optimal assignment of the first problem and one of the second is optimal for the first, the greatest is optimal for the second; in both problems there are a least and a greatest optimal assignment of the mu, and raising the limits does not make them smaller anywhere. With equal limits: the optimal assignments form a lattice.", "quantifier": "all well-formed problems with convex costs within the capacity, all nonempty ranges of the variables within theirs", "why_tests_cant": "it relates the results of up to four calls of the solver over all limits, and the assignments behind them, which the solver does not return", "anchors": ["src/ProblemSolver.cpp:42-59", "src/ProblemDefine.hpp"]}
{"id": "C87", "title": "the resets left out of initialization are not needed", "statement": "Flow::initialization resets only current_edge; the resets of the link-cut nodes, of the imbalances, of the queue and of the parents are there as comments, with the remark that these variables do not change across iterations. Before every phase and after the last all imbalances are 0, the queue is empty with all its flags off, no node has a parent, and every node of the link-cut tree stands alone (no father and no children there). min_cost returns the same value whether these resets are executed or not. (The values and pending increments in the link-cut nodes do change across iterations, as an example shows; this has no effect on the result.)", "quantifier": "all networks made of convex limits within the capacity, all phases", "why_tests_cant": "a stale field in one of the structures shows up only in inputs which make a phase end in an unusual state; tests see the final value only", "anchors": ["src/Flow.cpp:48-56", "src/Flow.cpp:30-46"]}
{"id": "C88", "title": "the rounding of the paper in Flow::q would make the program run forever", "statement": "The comment in q says that the paper uses floor where the code uses ceil - 1 and that the latter meets the demands as well. For a single edge that is so (C85), but for the program as it is the floor would not do: for n = 2, mu_1 in [0,1], mu_2 = 1, no costs and no pairs, which meets all the demands on the input and has the optimum 0, solve() returns 0, and the same program with the floor in q (and nothing else changed) never returns: a unit of flow goes back and forth between node 1 and node 0, and the loop of refine does not end.", "quantifier": "one instance, any amount of time", "why_tests_cant": "a run without end can not be observed to have no end, and the tests exercise the code's rounding only", "anchors": ["src/Flow.cpp:128-140", "src/Flow.cpp:73-83"]}
{"id": "C89", "title": "excess and deficit during refine", "statement": "In every phase, before every round of the loop of refine: the imbalances of all n+1 nodes add up to 0; a node with a deficit (negative imbalance) still has the potential which it had at the beginning of the phase; the queue contains no node twice and at most n nodes. A round takes excess from the front node p only: p has excess before the round and no deficit after it, its imbalance does not grow, and no other imbalance decreases. Hence the sum of all excesses never increases during a phase, and no node ever gets a deficit in it. In each phase there is a node whose potential is the same in all rounds.", "quantifier": "all networks made of convex limits within the capacity, all phases, all rounds", "why_tests_cant": "imbalances are private and all zero when min_cost returns", "anchors": ["src/Flow.cpp:73-83", "src/Flow.cpp:85-114"]}
{"id": "C90", "title": "the numbers of calc: which others would do", "statement": "calc computes valid_cost_max, M and U. With any M' > M-1 in place of M, any positive number in place of U for which int has the capacity (so U influences the time only), and any threshold t with valid_cost_max <= t < valid_cost_max+1+(M'-M), the program decides the same: min_cost exceeds t if and only if the ranges can not all be respected, and is the least cost otherwise. Smaller M' will not do: there are networks with M = k+1 for every k in which every penalty M' with 1 <= M' < k gives a result below the least cost, and a network without costs in which M' = M-1 = 0 makes an infeasible problem look feasible.", "quantifier": "all networks made of convex limits; all M', U', t, k", "why_tests_cant": "the numbers are chosen once in the program; tests run the chosen ones only", "anchors": ["src/ProblemSolver.cpp:89-99", "src/ProblemSolver.cpp:42-59"]}
