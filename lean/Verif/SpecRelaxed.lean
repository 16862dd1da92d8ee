import Verif.Spec
import Mathlib.Algebra.Order.Floor.Ring
import Mathlib.Data.Rat.Floor
/-!
# Specification: fractional assignments, and problems which are related to each other

Nothing in this file refers to the model.
-/

namespace AHO.Spec

/-! ### Fractional assignments -/

/-- the cost `g`, continued linearly between the integers -/
def interp {K : Type} [Ring K] [RatCast K] (g : Int → K) (x : ℚ) : K := (1 - (Int.fract x : ℚ)) * g ⌊x⌋ + (Int.fract x : ℚ) * g (⌊x⌋ + 1)

/-- The constraints for variables which need not be integers. -/
def RelaxedFeasible {K : Type} (P : Problem K) (μ ω : Nat → ℚ) : Prop :=
  (∀ i, 1 ≤ i → i ≤ P.n → (P.lo i : ℚ) ≤ μ i ∧ μ i ≤ P.hi i) ∧
    ∀ (k : Nat) (hk : k < P.pairs.length),
      (P.pairs[k].l : ℚ) ≤ ω k ∧ ω k ≤ P.pairs[k].u ∧ μ P.pairs[k].i - μ P.pairs[k].j ≤ ω k

/-- The objective for such variables; the costs are continued linearly between the integers. -/
def relaxedCost {K : Type} [Ring K] [RatCast K] (P : Problem K) (μ ω : Nat → ℚ) : K :=
  ∑ i ∈ Finset.Icc 1 P.n, interp (P.F i) (μ i) + ∑ k : Fin P.pairs.length, interp P.pairs[k].B (ω k)

/-! ### Related problems -/

section
variable {K : Type}

/-- `P` has the costs of `Q` and `R`, which are convex, and its limits are midway between theirs, or wider. -/
structure Midway [Sub K] [LE K] (P Q R : Problem K) : Prop where
  n : Q.n = P.n ∧ R.n = P.n
  F : ∀ i, 1 ≤ i → i ≤ P.n → Q.F i = P.F i ∧ R.F i = P.F i
  lo : ∀ i, 1 ≤ i → i ≤ P.n → 2 * P.lo i ≤ Q.lo i + R.lo i
  hi : ∀ i, 1 ≤ i → i ≤ P.n → Q.hi i + R.hi i ≤ 2 * P.hi i
  nodes : ∀ i, 1 ≤ i → i ≤ P.n → Convex (P.F i) (min (Q.lo i) (R.lo i)) (max (Q.hi i) (R.hi i))
  len : Q.pairs.length = P.pairs.length ∧ R.pairs.length = P.pairs.length
  pairs : ∀ (k : Nat) (p q r : Pair K), P.pairs[k]? = some p → Q.pairs[k]? = some q → R.pairs[k]? = some r →
    q.i = p.i ∧ r.i = p.i ∧ q.j = p.j ∧ r.j = p.j ∧ q.B = p.B ∧ r.B = p.B ∧ 2 * p.l ≤ q.l + r.l ∧ q.u + r.u ≤ 2 * p.u ∧
      Convex p.B (min q.l r.l) (max q.u r.u)

/-- Multiply all costs by `c`. -/
def Problem.scale [Mul K] (P : Problem K) (c : K) : Problem K :=
  { P with
    F := fun i x => c * P.F i x
    pairs := P.pairs.map fun p => { p with B := fun x => c * p.B x } }

/-- Change the sign of all variables of the nodes. -/
def Problem.mirror (P : Problem K) : Problem K :=
  { P with
    lo := fun i => -P.hi i
    hi := fun i => -P.lo i
    F := fun i x => P.F i (-x)
    pairs := P.pairs.map fun p => { p with i := p.j, j := p.i } }

/-- Two problems side by side; the nodes of `Q` come after those of `P`. -/
def Problem.union (P Q : Problem K) : Problem K where
  n := P.n + Q.n
  lo := fun i => if i ≤ P.n then P.lo i else Q.lo (i - P.n)
  hi := fun i => if i ≤ P.n then P.hi i else Q.hi (i - P.n)
  F := fun i => if i ≤ P.n then P.F i else Q.F (i - P.n)
  pairs := P.pairs ++ Q.pairs.map fun p => { p with i := P.n + p.i, j := P.n + p.j }

/-- Give the variable of node `i` the value `x`: its range becomes `[x, x]`. -/
def Problem.fix (P : Problem K) (i : Nat) (x : Int) : Problem K :=
  { P with
    lo := fun k => if k = i then x else P.lo k
    hi := fun k => if k = i then x else P.hi k }

/-- Give the variables of the nodes the ranges `[lo i, hi i]`. -/
def Problem.restrict (P : Problem K) (lo hi : Nat → Int) : Problem K := { P with lo := lo, hi := hi }

/-- The values `μ` of the nodes satisfy the constraints, with suitable values of the pairs, at the cost `v`. -/
def Attains [AddCommMonoid K] (P : Problem K) (v : K) (μ : Nat → Int) : Prop := ∃ ω, Feasible P μ ω ∧ cost P μ ω = v

/-- These ranges are not empty, and they lie within those of `P`. -/
def Inside (P : Problem K) (lo hi : Nat → Int) : Prop :=
  ∀ i, 1 ≤ i → i ≤ P.n → P.lo i ≤ lo i ∧ lo i ≤ hi i ∧ hi i ≤ P.hi i

/-- Give the variables of the nodes `1, …, k` their values in `μ`, one after the other. -/
def Problem.fixAll (P : Problem K) (μ : Nat → Int) : Nat → Problem K
  | 0 => P
  | k + 1 => (P.fixAll μ k).fix (k + 1) (μ (k + 1))

/-- Change the variables of the nodes in `S` by `d`. -/
def move (μ : Nat → Int) (S : Finset Nat) (d : Int) : Nat → Int := fun i => if i ∈ S then μ i + d else μ i

/-- The assignment `μ`, `ω` of `P` is not at an end of a range where the range of `Q` is wider. -/
def NotAtEnds (P Q : Problem K) (μ ω : Nat → Int) : Prop :=
  (∀ i, 1 ≤ i → i ≤ P.n → (Q.lo i = P.lo i ∨ P.lo i < μ i) ∧ (Q.hi i = P.hi i ∨ μ i < P.hi i)) ∧
    ∀ (k : Nat) (p q : Pair K), P.pairs[k]? = some p → Q.pairs[k]? = some q → (q.l = p.l ∨ p.l < ω k) ∧ (q.u = p.u ∨ ω k < p.u)

end

end AHO.Spec
