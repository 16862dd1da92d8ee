import Verif.Spec
/-!
# Specification: the dual problem

Nothing in this file refers to the model.
-/

namespace AHO.Spec
variable {K : Type}

/-- `f k` units flow through the `k`-th arc, at most `M` in either direction, and no node keeps any. -/
structure DualFeasible [AddCommGroup K] [Lattice K] (n : Nat) (M : K) (arcs : List (Pair K)) (f : Nat → K) : Prop where
  bound : ∀ k, k < arcs.length → |f k| ≤ M
  conserved : ∀ v, v ≤ n → outflow arcs f v = 0

/-- `d` is the value of the dual problem at `f`: the sum over the arcs of the least value of `B x - f x` on the range of the arc. -/
def DualValue [Ring K] [LE K] (arcs : List (Pair K)) (f : Nat → K) (d : K) : Prop :=
  ∃ m : Nat → K, (∀ (k : Nat) (hk : k < arcs.length),
      IsLeast {w | ∃ x : Int, arcs[k].l ≤ x ∧ x ≤ arcs[k].u ∧ w = arcs[k].B x - f k * (x : K)} (m k)) ∧
    d = ∑ k : Fin arcs.length, m k

/-- The cost of the potentials `π`, as in `penalised`, if `h k` is added to the difference of the potentials at the `k`-th arc. -/
def penalisedAt [Ring K] (M : K) (arcs : List (Pair K)) (h : Nat → Int) (π : Nat → Int) : K :=
  ∑ k : Fin arcs.length, penal M arcs[k].l arcs[k].u arcs[k].B (π arcs[k].i - π arcs[k].j + h k)

end AHO.Spec
