import Verif.Proof.GenProblem
import Verif.Proof.GenBounds
import Verif.Proof.GenMono
import Verif.Proof.GenWindows
import Verif.Props.Simple
import Verif.Props.DoubleSimple
/-!
# The generator of the random tests

`Gen.tinyGen` is `TinyGen` of `test/generator.cpp`. Its state `s` holds the seed of the random numbers and the queue of functions to be printed, which is
empty at the start of the program.
-/

namespace AHO.Props
open Spec Gen Format

/-- The arguments of `TinyGen` make sense: there is a node, there can be `n - 1` edges, the ranges are not empty, and the numbers that occur
fit into `int`. -/
structure GenArgs (n mlimit : Int) (nl el fl : Int × Int) : Prop where
  n_pos : 1 ≤ n
  n_le : n ≤ 2 ^ 31 - 1
  n_sq : n * (n - 1) ≤ 2 ^ 31 - 1
  m_ge : n - 1 ≤ mlimit
  m_le : mlimit ≤ 2 ^ 31 - 1
  node : nl.1 ≤ nl.2
  node' : nl.2 - nl.1 < 2 ^ 32
  edge : el.1 ≤ el.2
  edge' : el.2 - el.1 < 2 ^ 32
  fn : fl.1 ≤ fl.2
  fn_lo : -2 ^ 31 ≤ 4 * fl.1
  fn_hi : 4 * fl.2 ≤ 2 ^ 31 - 1

theorem GenArgs.args {n mlimit : Int} {nl el fl : Int × Int} (h : GenArgs n mlimit nl el fl) : Args n mlimit nl el fl :=
  ⟨h.n_pos, h.n_sq, h.n_le, h.m_ge, h.m_le, h.node, h.node', h.edge, h.edge', ⟨h.fn, h.fn_lo, h.fn_hi⟩⟩

theorem safe_cases {α : Type} {x : Gen α} {s : Gen.State} {post : α → Gen.State → Prop} (h : Safe False x s post) :
    x s = .error .fuel ∨ ∃ a s', x s = .ok (a, s') ∧ post a s' := by
  unfold Safe at h
  split at h
  · exact .inr ⟨_, _, by assumption, h⟩
  · rename_i e he
    left; rw [he, h.1]

theorem safe_total {α : Type} {x : Gen α} {s : Gen.State} {post : α → Gen.State → Prop} (h : Safe True x s post) :
    ∃ a s', x s = .ok (a, s') ∧ post a s' := by
  unfold Safe at h
  split at h
  · exact ⟨_, _, by assumption, h⟩
  · exact absurd trivial h.2

section
variable {K : Type} [Field K] [LinearOrder K] [IsStrictOrderedRing K] {n mlimit : Int} {multi : Bool} {nl el fl : Int × Int}

/-- C47. For all arguments that make sense, all seeds and all states of the random numbers: if `TinyGen` ends, it has made a problem as
intended, and the queue of functions is empty again. There is no undefined behaviour; in particular `buf` is long enough for the
functions printed, and `edges[i]` exists for all `i < m`. -/
theorem C47_generator_correct (h : GenArgs n mlimit nl el fl) (fuel seed : Nat) (genInfo : Bool) (s : Gen.State) (hs : s.funs = []) :
    tinyGen (D := K) fuel n mlimit multi nl el fl seed genInfo s = .error .fuel ∨
      ∃ (g : Graph K) (s' : Gen.State) (P : Problem K), tinyGen fuel n mlimit multi nl el fl seed genInfo s = .ok (g, s') ∧ s'.funs = [] ∧
        g.n = n ∧ g.m = g.edge.length ∧ Represents P g.node g.edge ∧ RandomProblem n mlimit multi nl el fl P := by
  refine (safe_cases (tinyGen_safe h.args False.elim False.elim hs)).imp id ?_
  rintro ⟨g, s', e, ⟨ends, nd, pd, ho⟩, hf⟩
  refine ⟨g, s', problem K ends nd pd, e, hf, ho.gn, ?_, ?_, ho.problem⟩
  · rw [ho.gm, ho.gedge, List.length_zipWith, ho.pd_len, min_self]
  · have := ho.represents (K := K) (e := fun x => x) (fun _ _ _ _ _ => rfl) fun _ _ _ _ _ => rfl
    rwa [mapCosts_id] at this

/-- C47. The same with `double`, when the limits are small enough: the functions of the generator return the exact values. -/
theorem C47_generator_double (h : GenArgs n mlimit nl el fl) {X A : Int} (n1 : -X ≤ nl.1) (n2 : nl.2 ≤ X) (e1 : -X ≤ el.1) (e2 : el.2 ≤ X)
    (f1 : -A ≤ fl.1) (f2 : fl.2 ≤ A) (hA : 4 * A < 2 ^ 51) (hX : X < 2 ^ 51) (hb : 4 * A * (X * X + X + 1) < 2 ^ 53) (fuel seed : Nat) (genInfo : Bool) (s : Gen.State)
    (hs : s.funs = []) :
    tinyGen (D := Flt binary64) fuel n mlimit multi nl el fl seed genInfo s = .error .fuel ∨
      ∃ (g : Graph (Flt binary64)) (s' : Gen.State) (P : Problem ℚ), tinyGen fuel n mlimit multi nl el fl seed genInfo s = .ok (g, s') ∧ s'.funs = [] ∧
        g.n = n ∧ g.m = g.edge.length ∧ Represents (P.mapCosts (Flt.ofRat binary64)) g.node g.edge ∧ RandomProblem n mlimit multi nl el fl P := by
  refine (safe_cases (tinyGen_safe h.args False.elim False.elim hs)).imp id ?_
  rintro ⟨g, s', e, ⟨ends, nd, pd, ho⟩, hf⟩
  exact ⟨g, s', problem ℚ ends nd pd, e, hf, ho.gn, by rw [ho.gm, ho.gedge, List.length_zipWith, ho.pd_len, min_self],
    ho.represents_flt n1 n2 e1 e2 f1 f2 (by have := h.fn; omega) hA hX hb, ho.problem⟩

end

/-- The hypotheses are met by the arguments of `HugeGen3`, with `X` = 40 and `A` = 100. -/
theorem hugeGen3_args : GenArgs 100 300 (-40, 40) (-40, 40) (-100, 100) := by constructor <;> norm_num

/-- `C47_generator_correct` for the arguments of `HugeGen3`. -/
example := C47_generator_correct (K := ℚ) (multi := true) hugeGen3_args 1000 7 true ⟨1, []⟩ rfl

example : GenArgs 100 300 (-40, 40) (-40, 40) (-100, 100) ∧ (4 * 100 * (40 * 40 + 40 + 1) : Int) < 2 ^ 53 ∧ (⟨1, []⟩ : Gen.State).funs = [] :=
  ⟨hugeGen3_args, by norm_num, rfl⟩

theorem bind_err {α β : Type} {x : Gen α} {f : α → Gen β} {s : Gen.State} {e : Err} (h : x s = .error e) : (x >>= f) s = .error e := by
  simp only [bind, StateT.bind, Except.bind, h]

theorem oneNode_bits : nextBits63 ⟨1, []⟩ = .ok (826243182315661, ⟨206026503483683, []⟩) := by
  rw [nextBits63_at, show step (step 1) = 206026503483683 by decide +kernel,
    show (step 1 / 2 ^ 17) * 2 ^ 32 ^^^ 206026503483683 / 2 ^ 16 = 826243182315661 by decide +kernel]

theorem oneNode_reject (k : Nat) :
    reject nextBits63 ((2 ^ 63 - 1) / (Int.toNat 6) * Int.toNat 6) (k + 1) ⟨1, []⟩ = .ok (826243182315661, ⟨206026503483683, []⟩) := by
  rw [show (2 ^ 63 - 1) / (Int.toNat 6) * Int.toNat 6 = 9223372036854775806 by decide +kernel]
  unfold reject
  rw [bind_at oneNode_bits, if_neg (by norm_num), pure_at]

theorem oneNode_long (k : Nat) : nextLong (k + 1) (5 - 0 + 1) ⟨1, []⟩ = .ok (1, ⟨206026503483683, []⟩) := by
  unfold nextLong
  rw [show (5 - 0 + 1 : Int) = 6 by norm_num, if_neg (by norm_num), bind_at (oneNode_reject k), pure_at,
    show ((826243182315661 % Int.toNat 6 : Nat) : Int) = 1 by decide +kernel]

theorem oneNode_next (k : Nat) : nextIn (k + 1) 0 5 ⟨1, []⟩ = .ok (1, ⟨206026503483683, []⟩) := by
  unfold nextIn
  rw [bind_at (oneNode_long k), pure_at]
  norm_num

/-- C47. `multi_edge` with a single node: if the number of edges drawn is not 0, `TinyGen` never ends, since no edge connects different
nodes. -/
theorem C47_generator_one_node : ∃ s : Gen.State, s.funs = [] ∧ GenArgs 1 5 (0, 1) (0, 1) (0, 1) ∧
    ∀ fuel, tinyGen (D := ℚ) fuel 1 5 true (0, 1) (0, 1) (0, 1) 7 false s = .error .fuel := by
  refine ⟨⟨1, []⟩, rfl, by constructor <;> norm_num, fun fuel => ?_⟩
  have hdraw : ∀ k (s : Gen.State), drawPair fuel 1 true [] k s = .error .fuel := by
    intro k
    induction k with
    | zero => intro s; rfl
    | succ k ih =>
      intro s
      unfold drawPair
      have hz : ∀ s : Gen.State, nextInt fuel 1 s = .ok (0, { s with seed := step s.seed }) := by
        intro s
        unfold nextInt
        rw [if_neg (by norm_num), if_pos (by decide), bind_at (nextBits31_at s), pure_at]
        have : (Int.toNat 1 * (step s.seed / 2 ^ 17)) / 2 ^ 31 = 0 := by
          have := step_lt s.seed
          rw [Int.toNat_one, one_mul]
          omega
        rw [this, Nat.cast_zero]
      have hj : judge true [] 0 0 = true := rfl
      rw [bind_at (hz s), bind_at (hz _), if_pos hj]
      exact ih _
  rcases Nat.eq_zero_or_pos fuel with rfl | hf
  · have h3 : ∀ x : Gen.State, nextIn 0 0 5 x = .error .fuel := fun x => by
      have h4 : ∀ l, reject nextBits63 l 0 x = .error .fuel := fun l => rfl
      unfold nextIn nextLong
      rw [if_neg (by norm_num)]
      exact bind_err (bind_err (h4 _))
    unfold tinyGen
    rw [bind_at (show edgeBound 1 5 true ⟨1, []⟩ = .ok (5, ⟨1, []⟩) from rfl), bind_at (show Gen.int (1 - 1) ⟨1, []⟩ = .ok (0, ⟨1, []⟩) from rfl)]
    exact bind_err (h3 _)
  obtain ⟨k, rfl⟩ : ∃ k, fuel = k + 1 := ⟨fuel - 1, by omega⟩
  have h1 : edgeBound 1 5 true ⟨1, []⟩ = .ok (5, ⟨1, []⟩) := rfl
  have h2 : Gen.int (1 - 1) ⟨1, []⟩ = .ok (0, ⟨1, []⟩) := rfl
  have h7 : setSeed 7 ⟨206026503483683, []⟩ = .ok ((), ⟨(7 ^^^ 0x5DEECE66D) % 2 ^ 48, []⟩) := by unfold setSeed; rfl
  have h8 : ∀ s : Gen.State, genGraph (k + 1) 1 1 true s = .error .fuel := by
    intro s
    have h9 : edgeLoop (k + 1) 1 true (k + 1) 1 [] [] s = .error .fuel := by
      unfold edgeLoop
      rw [if_neg (by norm_num), bind_at (show Gen.int (1 - 1) s = .ok (0, s) from rfl)]
      exact bind_err (hdraw _ _)
    unfold genGraph
    rw [if_pos rfl]
    exact bind_err h9
  unfold tinyGen
  rw [bind_at h1, bind_at h2, bind_at (oneNode_next k), bind_at h7]
  exact bind_err (h8 _)

/-- the arguments of `TinyGen`, without the seed -/
structure Suite where
  n : Int
  mlimit : Int
  multi : Bool
  nl : Int × Int
  el : Int × Int
  fl : Int × Int

/-- the five families of random tests -/
def suites : List Suite :=
  [⟨5, 10, false, (-2, 2), (-2, 6), (-10, 10)⟩, ⟨4, 10, true, (-2, 2), (-2, 6), (-10, 10)⟩, ⟨50, 100, false, (-20, 20), (-20, 60), (-100, 100)⟩,
    ⟨50, 200, true, (-20, 20), (-20, 60), (-100, 100)⟩, ⟨100, 300, true, (-40, 40), (-40, 40), (-100, 100)⟩]

/-- round `i` of the tests -/
def Suite.gen (S : Suite) (D : Type) [IntCast D] [Add D] [Mul D] [Div D] (fuel i : Nat) : Gen (Graph D) :=
  tinyGen fuel S.n S.mlimit S.multi S.nl S.el S.fl i true

/-- `SmallGen1`, `SmallGen2`, `HugeGen1`, `HugeGen2`, `HugeGen3` of `test/test.cpp` -/
theorem C48_suites_are_the_tests (D : Type) [IntCast D] [Add D] [Mul D] [Div D] :
    suites.map (fun S => S.gen D) = [smallGen1, smallGen2, hugeGen1, hugeGen2, hugeGen3] := rfl

theorem suite_args : ∀ S ∈ suites, GenArgs S.n S.mlimit S.nl S.el S.fl := by
  simp only [suites, List.forall_mem_cons, List.not_mem_nil, false_imp_iff, implies_true, and_true]
  refine ⟨?_, ?_, ?_, ?_, ?_⟩ <;> constructor <;> norm_num

theorem suite_windows : ∀ S ∈ suites, ∀ m, 0 < m → m ≤ S.mlimit → (S.multi = false → 2 * m ≤ S.n * (S.n - 1)) → Windows S.n S.multi m := by
  simp only [suites, List.forall_mem_cons, List.not_mem_nil, false_imp_iff, implies_true, and_true]
  refine ⟨?_, ?_, ?_, ?_, ?_⟩
  · exact fun m _ h _ => windows_of windows5_ok fun _ => h
  · exact fun m _ h _ => windows_of windows4_ok fun h => by cases h
  · exact fun m _ h _ => windows_of windows50_ok fun _ => h
  · exact fun m _ h _ => windows_of windows50_ok fun h => by cases h
  · exact fun m _ h _ => windows_of windows100_ok fun h => by cases h

/-- numbers that bound the suite: ends of the ranges, coefficients, lengths -/
structure Suite.Bounds (S : Suite) (X A W : Nat) : Prop where
  numbers : Numbers S.nl S.el S.fl X A W
  cap : 6 * (S.n.toNat + 1) * bitCeil ((S.n.toNat + 1) * W) ≤ 2147483647
  edges : 4 * (2 * W + 1) * (S.n.toNat + S.mlimit.toNat) ≤ 2147483647
  pos : 0 < S.n.toNat
  spread : 2 * ((S.mlimit.toNat + S.n.toNat) * (A * (X ^ 2 + X + 1))) < 10 ^ 9
  digits : (1 + 2 * ((S.mlimit.toNat + S.n.toNat) * (A * (X ^ 2 + X + 1)))) *
    (2 * (S.mlimit.toNat + S.n.toNat) * (Nat.clog 2 (2 * (S.n.toNat + 1) * W) + W + 2) + 2) + W + 2 < 2 ^ 50
  A_le : A < 2 ^ 49
  X_le : X < 2 ^ 29
  quad : 4 * A * (X * X + X + 1) < 2 ^ 53
  W_pos : 1 ≤ W
  simple : 4 * 10 ^ 9 * (W + 1) * (S.n.toNat + S.mlimit.toNat + 1) + (S.n.toNat + S.mlimit.toNat + 4) * (A * (X ^ 2 + X + 1)) < 2 ^ 50
  potentials : 36 * (W * (S.n.toNat + 1)) ^ 2 < 2 ^ 53

theorem suite_bounds : ∀ S ∈ suites, ∃ X A W, S.Bounds X A W := by
  simp only [suites, List.forall_mem_cons, List.not_mem_nil, false_imp_iff, implies_true, and_true]
  refine ⟨⟨6, 10, 10, ?_⟩, ⟨6, 10, 10, ?_⟩, ⟨60, 100, 100, ?_⟩, ⟨60, 100, 100, ?_⟩, ⟨40, 100, 120, ?_⟩⟩ <;>
    exact ⟨⟨by decide, by decide, by decide, by decide, by decide, by decide, by decide, by decide, by decide⟩, by decide +kernel, by decide +kernel, by decide,
      by decide +kernel, by decide +kernel, by decide +kernel, by decide +kernel, by decide +kernel, by decide, by decide +kernel, by decide +kernel⟩

/-- the ends and ranges of the edges made -/
def edgesOf (x : Res (Graph ℚ × Gen.State)) : Option (List (Nat × Nat × Int × Int)) :=
  match x with
  | .ok (g, _) => some (g.edge.map fun e => (e.i, e.j, e.l, e.u))
  | .error _ => none

/-- the state at the start of the program (`3rd/generator/testlib.h:727-729`) -/
def startState : Gen.State := ⟨3905348978240129619, []⟩

/-- The first round of `SmallGen1` -/
example : edgesOf (smallGen1 100 1 startState) = some [(3, 5, -1, 0), (5, 4, -1, 5), (2, 3, -2, 1), (3, 1, 0, 6), (5, 2, 2, 6), (3, 4, 2, 6),
    (5, 1, 1, 4), (2, 1, -2, 1), (4, 1, 5, 6)] := by decide +kernel

/-- C49. The seed does not determine the graph: the number of edges is drawn before the seed is set. Round 2 of `SmallGen1` has 9 edges if it is
run alone and 10 edges if it is run after round 1. -/
theorem C49_seed_insufficient :
    (edgesOf (smallGen1 100 2 startState)).map List.length = some 9 ∧
    (edgesOf ((smallGen1 (D := ℚ) 100 1 >>= fun _ => smallGen1 100 2) startState)).map List.length = some 10 := by
  constructor <;> decide +kernel

section
variable {K : Type} [Field K] [LinearOrder K] [IsStrictOrderedRing K]

theorem suite_returns {D : Type} [IntCast D] [Add D] [Mul D] [Div D] {S : Suite} (hS : S ∈ suites) (i : Nat) {s : Gen.State} (hs : s.funs = []) :
    ∃ g s', Returns (fun fuel => S.gen D fuel i s) (g, s') ∧ s'.funs = [] ∧ ∃ ends nd pd, Out D S.n S.mlimit S.multi S.nl S.el S.fl g ends nd pd := by
  obtain ⟨g, s', e, ho, hf⟩ := safe_total (tinyGen_safe (D := D) (T := True) (fuel := 2 ^ 50) (seed := i) (gi := true) (suite_args S hS).args (fun _ => le_rfl)
    (fun _ => suite_windows S hS) hs)
  exact ⟨g, s', returns_of_eval (2 ^ 50) e fun a b hab => tinyGen_le hab _ _ _ _ _ _ _ _ s, hf, ho⟩

/-- C47. In the five families of tests the generator ends for every seed and every state of the random numbers, with a problem as intended. -/
theorem C47_generator_ends {S : Suite} (hS : S ∈ suites) (i : Nat) (s : Gen.State) (hs : s.funs = []) :
    ∃ (g : Graph K) (s' : Gen.State) (P : Problem K), Returns (fun fuel => S.gen K fuel i s) (g, s') ∧ s'.funs = [] ∧
      g.n = S.n ∧ g.m = g.edge.length ∧ Represents P g.node g.edge ∧ RandomProblem S.n S.mlimit S.multi S.nl S.el S.fl P := by
  obtain ⟨g, s', e, hf, ends, nd, pd, ho⟩ := suite_returns (D := K) hS i hs
  refine ⟨g, s', problem K ends nd pd, e, hf, ho.gn, ?_, ?_, ho.problem⟩
  · rw [ho.gm, ho.gedge, List.length_zipWith, ho.pd_len, min_self]
  · have := ho.represents (K := K) (e := fun x => x) (fun _ _ _ _ _ => rfl) fun _ _ _ _ _ => rfl
    rwa [mapCosts_id] at this

/-- The first round of `SmallGen1` in a fresh state. -/
example := C47_generator_ends (K := ℚ) (S := ⟨5, 10, false, (-2, 2), (-2, 6), (-10, 10)⟩) (by simp [suites]) 1 startState rfl

/-- what the random problems of the tests satisfy -/
theorem suite_problem {S : Suite} {P : Problem K} (h : RandomProblem S.n S.mlimit S.multi S.nl S.el S.fl P) {X A W : Nat} (b : S.Bounds X A W) :
    WellFormed P ∧ ConvexCosts P ∧ SimpleCapacity (2 ^ 31 - 1) P W ∧ Spread P (10 ^ 9) ∧ P.n + 1 < 2 ^ 64 ∧ Capacity (2 ^ 31 - 1) P := by
  have hn : P.n = S.n.toNat := by have := h.gn; omega
  have hm : P.pairs.length ≤ S.mlimit.toNat := by have := h.m_le; omega
  have hX : X < 2 ^ 29 := b.X_le
  have hcap := b.cap
  have hn6 : P.n + 1 < 2 ^ 31 := by
    rw [hn]
    have h1 : 1 ≤ bitCeil ((S.n.toNat + 1) * W) := Nat.one_le_two_pow
    have : 6 * (S.n.toNat + 1) * 1 ≤ 6 * (S.n.toNat + 1) * bitCeil ((S.n.toNat + 1) * W) := Nat.mul_le_mul_left _ h1
    omega
  have hed : 4 * (2 * W + 1) * (P.n + P.pairs.length) ≤ 2147483647 := by
    rw [hn]
    exact (Nat.mul_le_mul_left _ (by omega)).trans b.edges
  refine ⟨h.wellFormed, h.convexCosts, ⟨h.within b.numbers, fun p hp => ?_, by omega, ?_, by omega, by norm_num; exact_mod_cast hed⟩, ?_, by omega,
    h.capacity b.numbers (by omega) ?_⟩
  · have := h.l p hp
    have := b.numbers.e1
    have := b.numbers.XW
    omega
  · have h1 := b.edges
    have h0 := b.pos
    have : 4 * (2 * W + 1) * 1 ≤ 4 * (2 * W + 1) * (S.n.toNat + S.mlimit.toNat) := Nat.mul_le_mul_left _ (by omega)
    omega
  · have := h.spread b.numbers (S := 10 ^ 9) (by
      refine lt_of_le_of_lt ?_ b.spread
      rw [hn]
      gcongr)
    exact_mod_cast this
  · rw [hn]
    rw [show (2 ^ 31 - 1 : Int) = ((2147483647 : Nat) : Int) by norm_num]
    exact_mod_cast hcap

/-- C48. In every round of the five families of tests, for every state of the random numbers, the generator ends, and then the solver and both
oracles return the same, without undefined behaviour: the optimum, or nothing if there is no solution. So none of these tests can fail in exact
arithmetic. -/
theorem C48_random_tests {S : Suite} (hS : S ∈ suites) (i : Nat) (s : Gen.State) (hs : s.funs = []) :
    ∃ (g : Graph K) (s' : Gen.State) (P : Problem K) (r : Option K), Returns (fun fuel => S.gen K fuel i s) (g, s') ∧ s'.funs = [] ∧
      Represents P g.node g.edge ∧ g.n = P.n ∧
      Returns (fun fuel => ProblemSolver.run (2 ^ 31 - 1) fuel P.n g.node g.edge) r ∧
      Returns (fun fuel => Oracle.bfSolve (2 ^ 31 - 1) fuel P.n g.node g.edge) r ∧
      Returns (fun fuel => SimpleSolver.solve (2 ^ 31 - 1) fuel P.n g.node g.edge) r ∧
      (∀ v, r = some v ↔ IsOptimum P v) ∧ (r = none ↔ ¬ Solvable P) := by
  obtain ⟨g, s', P, e, hf, hn, hm, hr, hP⟩ := C47_generator_ends (K := K) hS i s hs
  obtain ⟨X, A, W, b⟩ := suite_bounds S hS
  obtain ⟨wf, cv, sc, sp, hn64, cap⟩ := suite_problem hP b
  obtain ⟨r, r1, r2, r3⟩ := C44_three_agree hr wf cv sc sp hn64 cap
  obtain ⟨r', o, r1'⟩ := ProblemSolver.run_capacity hr wf cv hn64 cap
  obtain rfl := r1.unique r1'
  exact ⟨g, s', P, r, e, hf, hr, by rw [hn, ← hP.gn], r1, r2, r3, outcome_some o, outcome_none o⟩

/-- The hypotheses are met. -/
example : (⟨100, 300, true, (-40, 40), (-40, 40), (-100, 100)⟩ : Suite) ∈ suites ∧ startState.funs = [] := ⟨by simp [suites], rfl⟩

end

/-- C48. With `double` the solver and both oracles return the exact optimum in all these tests, so the tests pass in every run of the real programs whose
arithmetic is that of IEEE 754. -/
theorem C48_random_tests_double {S : Suite} (hS : S ∈ suites) (i : Nat) (s : Gen.State) (hs : s.funs = []) :
    ∃ (g : Graph (Flt binary64)) (s' : Gen.State) (P : Problem ℚ) (r : Option ℚ), Returns (fun fuel => S.gen (Flt binary64) fuel i s) (g, s') ∧ s'.funs = [] ∧
      Represents (P.mapCosts (Flt.ofRat binary64)) g.node g.edge ∧ g.n = P.n ∧
      Returns (fun fuel => ProblemSolver.run (2 ^ 31 - 1) fuel P.n g.node g.edge) (r.map (Flt.ofRat binary64)) ∧
      Returns (fun fuel => Oracle.bfSolve (2 ^ 31 - 1) fuel P.n g.node g.edge) (r.map (Flt.ofRat binary64)) ∧
      Returns (fun fuel => SimpleSolver.solve (2 ^ 31 - 1) fuel P.n g.node g.edge) (r.map (Flt.ofRat binary64)) ∧
      (∀ v, r = some v ↔ IsOptimum P v) ∧ (r = none ↔ ¬ Solvable P) := by
  obtain ⟨g, s', e, hf, ends, nd, pd, ho⟩ := suite_returns (D := Flt binary64) hS i hs
  obtain ⟨X, A, W, b⟩ := suite_bounds S hS
  have hq : (4 * A * (X * X + X + 1) : Int) < 2 ^ 53 := by exact_mod_cast b.quad
  have hrep := ho.represents_flt b.numbers.n1 b.numbers.n2 b.numbers.e1 b.numbers.e2 b.numbers.f1 b.numbers.f2 (by omega)
    (by have := b.A_le; omega) (by have := b.X_le; omega) hq
  have hP : RandomProblem S.n S.mlimit S.multi S.nl S.el S.fl (problem ℚ ends nd pd) := ho.problem
  obtain ⟨wf, cv, sc, sp, hn64, cap⟩ := suite_problem hP b
  have hn : (problem ℚ ends nd pd).n = S.n.toNat := by have := hP.gn; omega
  have hm : (problem ℚ ends nd pd).pairs.length ≤ S.mlimit.toNat := by have := hP.m_le; omega
  obtain ⟨r, r1, r2, r3⟩ := C32_floating_point_exact (f := binary64) (j := -2) (by decide) (by decide) (by decide) (by decide) hrep wf cv hn64
    (imax := 2 ^ 31 - 1) cap.1 (hP.within b.numbers) (hP.widths b.numbers) (by rw [hn, show (2 ^ 31 - 1 : Int) = ((2147483647 : Nat) : Int) by norm_num]; exact_mod_cast b.cap) (Nat.cast_nonneg _) (hP.allCosts b.numbers) (by
      have h1 : (1 + 2 * (((problem ℚ ends nd pd).pairs.length + (problem ℚ ends nd pd).n) * (A * (X ^ 2 + X + 1)))) *
          (2 * ((problem ℚ ends nd pd).pairs.length + (problem ℚ ends nd pd).n) * (Nat.clog 2 (2 * ((problem ℚ ends nd pd).n + 1) * W) + W + 2) + 2) + W + 2 < 2 ^ 50 := by
        refine lt_of_le_of_lt ?_ b.digits
        rw [hn]
        gcongr
      have h2 : (2 : ℚ) ^ (binary64.p - 1) * (2 : ℚ) ^ (-2 : Int) = ((2 ^ 50 : Nat) : ℚ) := by
        rw [show binary64.p - 1 = 52 from rfl]; norm_num
      rw [h2]
      exact_mod_cast h1)
  have hsimple : 4 * 10 ^ 9 * (W + 1) * ((problem ℚ ends nd pd).n + (problem ℚ ends nd pd).pairs.length + 1) +
      ((problem ℚ ends nd pd).n + (problem ℚ ends nd pd).pairs.length + 4) * (A * (X ^ 2 + X + 1)) < 2 ^ 50 := by
    refine lt_of_le_of_lt ?_ b.simple
    rw [hn]
    gcongr
  obtain ⟨r', r1', r2', r3'⟩ := C50_oracle_exact (f := binary64) (j := -2) (by decide) (by decide) hrep wf (fun p hp => (cv.pairs p hp).valley) (imax := 2 ^ 31 - 1) cap.1 sc.within sc.R_nonneg
    sc.range (Nat.cast_nonneg _) (hP.allCosts b.numbers) (by
      have h1 : ((problem ℚ ends nd pd).n + (problem ℚ ends nd pd).pairs.length) * (A * (X ^ 2 + X + 1)) < 2 ^ 51 := by
        refine lt_of_le_of_lt ?_ (hsimple.trans (by norm_num))
        refine le_trans (Nat.mul_le_mul_right _ (by omega)) (Nat.le_add_left _ _)
      have h2 : (2 : ℚ) ^ binary64.p * (2 : ℚ) ^ (-2 : Int) = ((2 ^ 51 : Nat) : ℚ) := by
        rw [show binary64.p = 53 from rfl]; norm_num
      rw [h2]
      exact_mod_cast h1)
  obtain ⟨r'', r1'', r2'', r3''⟩ := C51_simple_exact (f := binary64) (j := -2) (by decide) (by decide) (by decide) (by decide) hrep wf cv b.W_pos sc sp
    (Nat.cast_nonneg _) (hP.allCosts b.numbers) (by rw [hn]; exact b.potentials) (by
      have h2 : (2 : ℚ) ^ binary64.p * (2 : ℚ) ^ ((-2 : Int) - 1) = ((2 ^ 50 : Nat) : ℚ) := by
        rw [show binary64.p = 53 from rfl]; norm_num
      rw [h2]
      exact_mod_cast hsimple)
  have same : ∀ q : Option ℚ, (∀ v, q = some v ↔ IsOptimum (problem ℚ ends nd pd) v) → q = r := by
    intro q hq
    cases r with
    | some v => exact (hq v).2 ((r2 v).1 rfl)
    | none =>
      cases q with
      | none => rfl
      | some v => exact absurd ((r2 v).2 ((hq v).1 rfl)) (by simp)
  rw [same r' r2'] at r1'
  rw [same r'' r2''] at r1''
  exact ⟨g, s', problem ℚ ends nd pd, r, e, hf, hrep, by rw [ho.gn, ← hP.gn], r1, r1', r1'', r2, r3⟩

/-- Round 7 of `HugeGen3` in a fresh state. -/
example := C48_random_tests_double (S := ⟨100, 300, true, (-40, 40), (-40, 40), (-100, 100)⟩) (by simp [suites]) 7 startState rfl

end AHO.Props
