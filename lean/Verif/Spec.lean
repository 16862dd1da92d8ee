import Mathlib.Algebra.Order.Field.Basic
import Mathlib.Order.Bounds.Basic
import Mathlib.Algebra.BigOperators.Group.Finset.Basic
import Mathlib.Algebra.BigOperators.Group.List.Basic
import Mathlib.Order.Interval.Finset.Nat
import Mathlib.Data.Nat.Log
import Mathlib.Logic.Equiv.Defs
/-!
# Specification

The vocabulary in which the properties are stated. Nothing in this file refers to the model.
-/

namespace AHO.Spec

/-- Discrete convexity on the integer interval `[l, u]`: the slopes do not decrease. -/
def Convex {K : Type} [Sub K] [LE K] (g : Int → K) (l u : Int) : Prop :=
  ∀ x, l ≤ x → x + 2 ≤ u → g (x + 1) - g x ≤ g (x + 2) - g (x + 1)

/-- The values on `[l, u]` first decrease and then do not decrease any more. All convex costs are like this, and all costs which never decrease,
for example an increasing linear cost whose values are rounded. -/
def Valley {K : Type} [LE K] (g : Int → K) (l u : Int) : Prop :=
  ∀ x y, l ≤ x → x ≤ y → y + 1 ≤ u → g x ≤ g (x + 1) → g y ≤ g (y + 1)

/-- The cost `g` on `[l, u]`, continued outside with slope `-M` on the left and `M` on the right. -/
def penal {K : Type} [Add K] [Mul K] [IntCast K] (M : K) (l u : Int) (g : Int → K) (x : Int) : K :=
  if x < l then g l + M * ((l - x : Int) : K) else if u < x then g u + M * ((x - u : Int) : K) else g x

/-- A cost on the difference of two variables, with an interval: the arc `(i, j)` with range `[l, u]`. -/
structure Pair (K : Type) where
  i : Nat
  j : Nat
  l : Int
  u : Int
  B : Int → K

/-- The potentials `π` respect the ranges of all arcs. -/
def ArcsFeasible {K : Type} (arcs : List (Pair K)) (π : Nat → Int) : Prop :=
  ∀ p ∈ arcs, p.l ≤ π p.i - π p.j ∧ π p.i - π p.j ≤ p.u

/-- Sum of the costs of all arcs at the potentials `π`. -/
def arcsCost {K : Type} [Add K] [Zero K] (arcs : List (Pair K)) (π : Nat → Int) : K :=
  (arcs.map fun p => p.B (π p.i - π p.j)).sum

/-- Sum of the costs of all arcs at the potentials `π`, every cost continued with slope `±M`
outside its range. -/
def penalised {K : Type} [Add K] [Mul K] [Zero K] [IntCast K] (M : K) (arcs : List (Pair K)) (π : Nat → Int) : K :=
  (arcs.map fun p => penal M p.l p.u p.B (π p.i - π p.j)).sum

/-- `m` is the least cost of an arc on its range. -/
def IsMinCost {K : Type} [LE K] (p : Pair K) (m : K) : Prop :=
  (∃ x, p.l ≤ x ∧ x ≤ p.u ∧ p.B x = m) ∧ ∀ x, p.l ≤ x → x ≤ p.u → m ≤ p.B x

/-- The optimisation problem: variables `μ 1, …, μ n` with ranges `[lo i, hi i]` and costs `F i`, and for
every pair a variable `ω` with range `[l, u]` and cost `B`. -/
structure Problem (K : Type) where
  n : Nat
  lo : Nat → Int
  hi : Nat → Int
  F : Nat → Int → K
  pairs : List (Pair K)

variable {K : Type}

/-- The constraints: all variables are in their ranges and `μ i - μ j ≤ ω` for every pair `(i, j)`. -/
def Feasible (P : Problem K) (μ : Nat → Int) (ω : Nat → Int) : Prop :=
  (∀ i, 1 ≤ i → i ≤ P.n → P.lo i ≤ μ i ∧ μ i ≤ P.hi i) ∧
    ∀ (k : Nat) (hk : k < P.pairs.length),
      P.pairs[k].l ≤ ω k ∧ ω k ≤ P.pairs[k].u ∧ μ P.pairs[k].i - μ P.pairs[k].j ≤ ω k

/-- The objective: `∑ F i (μ i) + ∑ B k (ω k)`. -/
def cost [AddCommMonoid K] (P : Problem K) (μ : Nat → Int) (ω : Nat → Int) : K :=
  ∑ i ∈ Finset.Icc 1 P.n, P.F i (μ i) + ∑ k : Fin P.pairs.length, P.pairs[k].B (ω k)

/-- `v` is the least cost of an assignment which satisfies the constraints. -/
def IsOptimum [AddCommMonoid K] [LE K] (P : Problem K) (v : K) : Prop :=
  (∃ μ ω, Feasible P μ ω ∧ cost P μ ω = v) ∧ ∀ μ ω, Feasible P μ ω → v ≤ cost P μ ω

/-- The constraints can be met. -/
def Solvable (P : Problem K) : Prop := ∃ μ ω, Feasible P μ ω

/-- Indices in range, nonempty ranges: the conditions on the input that do not concern the costs. -/
structure WellFormed (P : Problem K) : Prop where
  nodes : ∀ i, 1 ≤ i → i ≤ P.n → P.lo i ≤ P.hi i
  i_pos : ∀ p ∈ P.pairs, 1 ≤ p.i
  i_le : ∀ p ∈ P.pairs, p.i ≤ P.n
  j_pos : ∀ p ∈ P.pairs, 1 ≤ p.j
  j_le : ∀ p ∈ P.pairs, p.j ≤ P.n
  ne : ∀ p ∈ P.pairs, p.i ≠ p.j
  le : ∀ p ∈ P.pairs, p.l ≤ p.u

/-- All costs are convex on their ranges. -/
structure ConvexCosts [Sub K] [LE K] (P : Problem K) : Prop where
  nodes : ∀ i, 1 ≤ i → i ≤ P.n → Convex (P.F i) (P.lo i) (P.hi i)
  pairs : ∀ p ∈ P.pairs, Convex p.B p.l p.u

/-- The ends of the node ranges, the upper ends of the pair ranges and the least differences of the node
ranges of a pair lie within `R` of zero. -/
structure Within (P : Problem K) (R : Int) : Prop where
  lo : ∀ i, 1 ≤ i → i ≤ P.n → -R ≤ P.lo i
  hi : ∀ i, 1 ≤ i → i ≤ P.n → P.hi i ≤ R
  u : ∀ p ∈ P.pairs, p.u ≤ R
  diff : ∀ p ∈ P.pairs, -R ≤ P.lo p.i - P.hi p.j

/-- All ranges have length at most `W`; that of a pair counts from the least difference of its nodes. -/
structure Widths (P : Problem K) (W : Int) : Prop where
  nodes : ∀ i, 1 ≤ i → i ≤ P.n → P.hi i - P.lo i ≤ W
  pairs : ∀ p ∈ P.pairs, p.u - (P.lo p.i - P.hi p.j) ≤ W

/-- `std::bit_ceil`: the least power of two that is not below `m`. -/
def bitCeil (m : Nat) : Nat := 2 ^ Nat.clog 2 m

/-- The lower ends and the lengths of the pair ranges are representable in an `int` with maximum `imax`. -/
structure Representable (imax : Int) (P : Problem K) : Prop where
  lo : ∀ p ∈ P.pairs, -imax - 1 ≤ p.l
  width : ∀ p ∈ P.pairs, p.u - p.l ≤ imax

/-- `int` is large enough for the problem: its maximum is at least `6 (n+1) bit_ceil((n+1) W)` for a `W`
which bounds both the lengths of the ranges and their distance from zero. -/
def Capacity (imax : Int) (P : Problem K) : Prop :=
  Representable imax P ∧
    ∃ W : Nat, Within P W ∧ Widths P W ∧ ((6 * (P.n + 1) * bitCeil ((P.n + 1) * W) : Nat) : Int) ≤ imax

/-- All variables are in their ranges; the constraints `μ i - μ j ≤ ω` are ignored. -/
def InRanges (P : Problem K) (μ : Nat → Int) (ω : Nat → Int) : Prop :=
  (∀ i, 1 ≤ i → i ≤ P.n → P.lo i ≤ μ i ∧ μ i ≤ P.hi i) ∧
    ∀ (k : Nat) (hk : k < P.pairs.length), P.pairs[k].l ≤ ω k ∧ ω k ≤ P.pairs[k].u

/-- The costs of two assignments differ by less than `S`, even if the constraints `μ i - μ j ≤ ω` are ignored. -/
def Spread [AddCommGroup K] [LT K] (P : Problem K) (S : K) : Prop :=
  ∀ μ ω μ' ω', InRanges P μ ω → InRanges P μ' ω' → cost P μ ω - cost P μ' ω' < S

/-! ### Networks -/

/-- An arc that a network with the nodes `0, …, n` can contain: different ends, nonempty range within `R` of zero, convex
cost, and slopes bounded by `M`. -/
structure ArcOK [Lattice K] [AddGroup K] (n : Nat) (M : K) (R : Int) (p : Pair K) : Prop where
  i_le : p.i ≤ n
  j_le : p.j ≤ n
  ne : p.i ≠ p.j
  le : p.l ≤ p.u
  lo : -R ≤ p.l
  hi : p.u ≤ R
  conv : Convex p.B p.l p.u
  bd : ∀ x, p.l ≤ x → x + 1 ≤ p.u → |p.B (x + 1) - p.B x| ≤ M

/-- An arc of a network with the nodes `0, …, n`: different ends, nonempty range within `R` of zero and of length at most
`W`, convex cost. -/
structure ArcIn [Sub K] [LE K] (n : Nat) (R W : Int) (p : Pair K) : Prop where
  i_le : p.i ≤ n
  j_le : p.j ≤ n
  ne : p.i ≠ p.j
  le : p.l ≤ p.u
  lo : -R ≤ p.l
  hi : p.u ≤ R
  wd : p.u - p.l ≤ W
  conv : Convex p.B p.l p.u

/-- The first value of `epsilon`: the least power of two which is not below `2 (n+1) U`. -/
def epsilon₀ (n : Nat) (U : Int) : Nat := bitCeil (2 * (n + 1) * U.toNat)

/-- `int` is large enough for a network with nodes `0, …, n`, ranges within `R` of zero, and the parameter `U`. -/
structure NetCapacity (imax : Int) (n : Nat) (U R : Int) : Prop where
  range : 2 * R ≤ imax
  nodes : 2 * ((n : Int) + 1) ≤ imax
  eps : (epsilon₀ n U : Int) ≤ imax
  pot : n * (2 * (n + 1) * R + (epsilon₀ n U / 2 : Nat)) + (epsilon₀ n U / 2 : Nat) +
    (3 * n + 1) * ((epsilon₀ n U / 2 : Nat) - 1) ≤ imax

/-- `f k` units flow through the `k`-th arc: what leaves the node `v` minus what enters it. -/
def outflow [AddCommGroup K] (arcs : List (Pair K)) (f : Nat → K) (v : Nat) : K :=
  ∑ k : Fin arcs.length, ((if arcs[k].i = v then f k else 0) - if arcs[k].j = v then f k else 0)

/-- Complementary slackness up to `c` for one arc with flow `f`, when the potentials of its ends, in units of `1/N`, differ by
`d`: slopes left of `(d - c) / N` are at most `f`, slopes right of `(d + c) / N` at least `f`. -/
def EpsOptimal [Ring K] [LE K] (M : K) (N c : Int) (p : Pair K) (d : Int) (f : K) : Prop :=
  (∀ x, x * N < d - c → penal M p.l p.u p.B (x + 1) - penal M p.l p.u p.B x ≤ f) ∧
    ∀ x, d + c < (x + 1) * N → f ≤ penal M p.l p.u p.B (x + 1) - penal M p.l p.u p.B x

/-! ### Circulations -/

/-- An arc from `u` to `v` with a cost for every unit of flow and a capacity. -/
structure FlowArc (K : Type) where
  u : Nat
  v : Nat
  cost : Int
  capacity : K

/-- `f k` units flow through the `k`-th arc: the capacities are respected, and what enters a node leaves it. -/
structure Circulation [AddCommGroup K] [LE K] (arcs : List (FlowArc K)) (f : Nat → K) : Prop where
  nonneg : ∀ k : Fin arcs.length, 0 ≤ f k
  le : ∀ k : Fin arcs.length, f k ≤ arcs[k].capacity
  balance : ∀ v, (∑ k : Fin arcs.length, if arcs[k].u = v then f k else 0) = ∑ k : Fin arcs.length, if arcs[k].v = v then f k else 0

/-- The cost of the flow `f`. -/
def flowCost [Ring K] (arcs : List (FlowArc K)) (f : Nat → K) : K := ∑ k : Fin arcs.length, f k * (arcs[k].cost : K)

/-- The dual: an arc costs its capacity times the amount by which the difference of the potentials of its ends exceeds its
cost. -/
def slackCost [Ring K] (arcs : List (FlowArc K)) (π : Nat → Int) : K :=
  (arcs.map fun a => a.capacity * ((max 0 (π a.u - π a.v - a.cost) : Int) : K)).sum

/-- The flow is optimal up to `ε` with respect to the potentials `p`: an arc which is not full is at most `ε` cheaper than the difference
of the potentials, an arc with flow at most `ε` dearer. -/
def FlowEpsOptimal [Ring K] [LE K] [LT K] (arcs : List (FlowArc K)) (f p : Nat → K) (ε : K) : Prop :=
  ∀ k : Fin arcs.length, (f k < arcs[k].capacity → p arcs[k].u - p arcs[k].v - arcs[k].cost ≤ ε) ∧
    (0 < f k → -ε ≤ p arcs[k].u - p arcs[k].v - arcs[k].cost)

/-! ### Changes of a problem -/

/-- Add the constant `a i` to the cost of node `i` and `b k` to the cost of the `k`-th pair. -/
def Problem.addConstants [Add K] (P : Problem K) (a b : Nat → K) : Problem K :=
  { P with
    F := fun i x => P.F i x + a i
    pairs := P.pairs.mapIdx fun k p => { p with B := fun x => p.B x + b k } }

/-- Replace every cost `v` by `f v`, for instance by the floating-point number of that value. -/
def Problem.mapCosts {D : Type} (P : Problem K) (f : K → D) : Problem D where
  n := P.n
  lo := P.lo
  hi := P.hi
  F := fun i x => f (P.F i x)
  pairs := P.pairs.map fun p => ⟨p.i, p.j, p.l, p.u, fun x => f (p.B x)⟩

/-- `Q` holds for all costs, at all points of the ranges. -/
structure Problem.AllCosts (P : Problem K) (Q : K → Prop) : Prop where
  nodes : ∀ i, 1 ≤ i → i ≤ P.n → ∀ x, P.lo i ≤ x → x ≤ P.hi i → Q (P.F i x)
  pairs : ∀ p ∈ P.pairs, ∀ x, p.l ≤ x → x ≤ p.u → Q (p.B x)

/-- The same problem up to the costs, which differ by at most `δ` on the ranges. -/
structure Problem.Near [Lattice K] [AddGroup K] (P P' : Problem K) (δ : K) : Prop where
  n : P'.n = P.n
  lo : ∀ i, 1 ≤ i → i ≤ P.n → P'.lo i = P.lo i
  hi : ∀ i, 1 ≤ i → i ≤ P.n → P'.hi i = P.hi i
  nodes : ∀ i, 1 ≤ i → i ≤ P.n → ∀ x, P.lo i ≤ x → x ≤ P.hi i → |P'.F i x - P.F i x| ≤ δ
  pairs : List.Forall₂ (fun p p' : Pair K => p'.i = p.i ∧ p'.j = p.j ∧ p'.l = p.l ∧ p'.u = p.u ∧
    ∀ x, p.l ≤ x → x ≤ p.u → |p'.B x - p.B x| ≤ δ) P.pairs P'.pairs

/-- Rename node `i` to `σ i`. -/
def Problem.rename (P : Problem K) (σ : Equiv.Perm Nat) : Problem K :=
  { P with
    lo := fun i => P.lo (σ.symm i)
    hi := fun i => P.hi (σ.symm i)
    F := fun i => P.F (σ.symm i)
    pairs := P.pairs.map fun p => { p with i := σ p.i, j := σ p.j } }

/-- Move all node ranges by `c`, the costs with them. -/
def Problem.translate (P : Problem K) (c : Int) : Problem K :=
  { P with
    lo := fun i => P.lo i + c
    hi := fun i => P.hi i + c
    F := fun i x => P.F i (x - c) }

/-- `P'` has smaller ranges than `P` and is otherwise the same. -/
structure Problem.Shrinks (P P' : Problem K) : Prop where
  n : P'.n = P.n
  lo : ∀ i, 1 ≤ i → i ≤ P.n → P.lo i ≤ P'.lo i
  hi : ∀ i, 1 ≤ i → i ≤ P.n → P'.hi i ≤ P.hi i
  F : ∀ i, 1 ≤ i → i ≤ P.n → P'.F i = P.F i
  pairs : List.Forall₂ (fun p q : Pair K => q.i = p.i ∧ q.j = p.j ∧ p.l ≤ q.l ∧ q.u ≤ p.u ∧ q.B = p.B) P.pairs P'.pairs

/-! ### Random problems -/

/-- A quadratic cost with quarters as coefficients, `(a x² + b x + c) / 4`, within the limits `fl` (given in units); the leading
coefficient is not negative. -/
def RandomCost [Field K] (fl : Int × Int) (F : Int → K) : Prop :=
  ∃ a b c : Int, (4 * max 0 fl.1 ≤ a ∧ a ≤ 4 * max 0 fl.2) ∧ (4 * fl.1 ≤ b ∧ b ≤ 4 * fl.2) ∧ (4 * fl.1 ≤ c ∧ c ≤ 4 * fl.2) ∧
    ∀ x, F x = ((a : K) * x ^ 2 + b * x + c) / 4

/-- The problems that the random tests are meant to generate: `n` nodes with ranges within `nl`, from `n - 1` to `mlimit` pairs of different
nodes with ranges within `el`, quadratic costs within `fl`. Unless `multi`, no two pairs connect the same nodes. -/
structure RandomProblem [Field K] (n mlimit : Int) (multi : Bool) (nl el fl : Int × Int) (P : Problem K) : Prop where
  gn : (P.n : Int) = n
  m_ge : n - 1 ≤ P.pairs.length
  m_le : (P.pairs.length : Int) ≤ mlimit
  lo : ∀ i, 1 ≤ i → i ≤ P.n → nl.1 ≤ P.lo i
  le : ∀ i, 1 ≤ i → i ≤ P.n → P.lo i ≤ P.hi i
  hi : ∀ i, 1 ≤ i → i ≤ P.n → P.hi i ≤ nl.2
  F : ∀ i, 1 ≤ i → i ≤ P.n → RandomCost fl (P.F i)
  i_pos : ∀ p ∈ P.pairs, 1 ≤ p.i
  i_le : ∀ p ∈ P.pairs, p.i ≤ P.n
  j_pos : ∀ p ∈ P.pairs, 1 ≤ p.j
  j_le : ∀ p ∈ P.pairs, p.j ≤ P.n
  ne : ∀ p ∈ P.pairs, p.i ≠ p.j
  l : ∀ p ∈ P.pairs, el.1 ≤ p.l
  lu : ∀ p ∈ P.pairs, p.l ≤ p.u
  u : ∀ p ∈ P.pairs, p.u ≤ el.2
  B : ∀ p ∈ P.pairs, RandomCost fl p.B
  simple : multi = false → P.pairs.Pairwise fun p q => ¬ (p.i = q.i ∧ p.j = q.j) ∧ ¬ (p.i = q.j ∧ p.j = q.i)

end AHO.Spec
