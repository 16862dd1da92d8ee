import Verif.Model.SimpleSolver
import Verif.Model.CostScalingCost
/-!
# `SimpleSolver::Solve` with a count of its steps

The functions of `Verif.Model.SimpleSolver` once more, statement by statement, with the number of evaluations of the cost functions of the problem and
the counters of `Verif.Model.CostScalingCost`. Every iteration of a loop of `test/SimpleSolver.cpp` which is not one of the search loops evaluates a cost
or creates an edge, or both. `Verif.Proof.SimpleCost` shows that the functions below, the counters removed, are those of the model.
-/

namespace AHO
namespace SimpleSolver
variable {D : Type} [Zero D] [One D] [Add D] [Sub D] [Neg D] [Mul D] [Div D] [IntCast D] [LT D] [LE D] [DecidableLT D]
  [DecidableLE D] [BEq D]

/-- A function (`std::function<double(int)>`) with the number of evaluations of costs of the problem which a call of it makes -/
abbrev FnC (D : Type) := Int → Res (Nat × D)

/-- A cost of the problem: one call is one evaluation. -/
def tick (f : Fn D) : FnC D := fun x => do
  let y ← f x
  .ok (1, y)

/-- `bij` (`test/SimpleSolver.cpp:15-23`) -/
def bijC (imax : Int) (f : FnC D) (l r x : Int) : Res (Nat × D) :=
  if x < l then .ok (0, -bigM)
  else if r ≤ x then .ok (0, bigM)
  else do
    let x1 ← ck imax (x + 1)
    let (k, a) ← f x1
    let (k', b) ← f x
    .ok (k + k', a - b)

/-- The ternary search (`test/SimpleSolver.cpp:61-71`, and the same text in lines 96-106) -/
def ternaryC (imax : Int) (f : FnC D) : Nat → Int → Int → Res (Nat × D)
  | 0, _, _ => .error .fuel
  | fuel + 1, l, r =>
    if l < r then do
      let d ← ck imax (r - l)
      let lmid ← ck imax (l + d.tdiv 3)
      let rmid ← ck imax (r - d.tdiv 3)
      let (k, a) ← f lmid
      let (k', b) ← f rmid
      if a ≤ b then do
        let r' ← ck imax (rmid - 1)
        let (c, y) ← ternaryC imax f fuel l r'
        .ok (k + k' + c, y)
      else do
        let l' ← ck imax (lmid + 1)
        let (c, y) ← ternaryC imax f fuel l' r
        .ok (k + k' + c, y)
    else do
      let (k, a) ← f l
      let (k', b) ← f r
      .ok (k + k', dmin a b)

/-- The lambda `E` (`test/SimpleSolver.cpp:59-72`) -/
def suffixMinC (imax : Int) (fuel : Nat) (e : OmegaLimit D) : FnC D := fun x => ternaryC imax (tick e.fn) fuel (max e.l x) e.u

/-- The body of the loops which split a cost (`test/SimpleSolver.cpp:37-48`, `76-87`) -/
def splitAtC (imax : Int) (f : FnC D) (l r : Int) (u v : Nat) (j : Int) : Res (Nat × List (InputEdge D)) := do
  let j1 ← ck imax (j - 1)
  let (k, lower) ← bijC imax f l r j1
  let (k', upper) ← bijC imax f l r j
  if 0 ≤ lower then .ok (k + k', [⟨u, v, j, upper - lower⟩])
  else do
    let nj ← ck imax (-j)
    if upper ≤ 0 then .ok (k + k', [⟨v, u, nj, upper - lower⟩])
    else .ok (k + k', [⟨u, v, j, upper⟩, ⟨v, u, nj, -lower⟩])

/-- The loops which split a cost (`test/SimpleSolver.cpp:36-49`, `75-88`) -/
def splitC (imax : Int) (fuel : Nat) (f : FnC D) (l r : Int) (u v : Nat) (edge : List (InputEdge D)) :
    Res (Nat × List (InputEdge D)) := do
  let s ← whileLoop (fun (s : Nat × Int × List (InputEdge D)) => .ok (decide (s.2.1 ≤ r)))
    (fun s => do
      let (k, es) ← splitAtC imax f l r u v s.2.1
      let j ← ck imax (s.2.1 + 1)
      .ok (s.1 + k, j, s.2.2 ++ es))
    fuel (0, l, edge)
  .ok (s.1, s.2.2)

/-- The local variables of `Solve` (`test/SimpleSolver.cpp:26-29`) -/
structure StateC (D : Type) where
  parts : List (FnC D × Int × Int)
  edge : List (InputEdge D)
  mx : D

/-- The loop over the nodes (`test/SimpleSolver.cpp:30-52`) -/
def nodesC (imax : Int) (fuel : Nat) (node : List (MuLimit D)) : Nat → Nat → StateC D → Res (Nat × Option (StateC D))
  | 0, _, s => .ok (0, some s)
  | cnt + 1, i, s => do
    let e ← listRd node i
    if e.u < e.l then .ok (0, none)
    else do
      let a ← e.fn e.l
      let b ← e.fn e.u
      let (k, edge) ← splitC imax fuel (tick e.fn) e.l e.u i 0 s.edge
      let (c, r) ← nodesC imax fuel node cnt (i + 1) ⟨s.parts ++ [(tick e.fn, e.l, e.u)], edge, s.mx + dmax a b⟩
      .ok (2 + k + c, r)

/-- The loop over the pairs (`test/SimpleSolver.cpp:53-91`) -/
def pairsC (imax : Int) (fuel : Nat) (node : List (MuLimit D)) : List (OmegaLimit D) → StateC D → Res (Nat × Option (StateC D))
  | [], s => .ok (0, some s)
  | e :: rest, s =>
    if e.u < e.l then .ok (0, none)
    else do
      let a ← e.fn e.l
      let b ← e.fn e.u
      let mi ← listRd node e.i
      let mj ← listRd node e.j
      let d ← ck imax (mi.l - mj.u)
      let l := min e.l d
      let _ ← ck imax e.i
      let _ ← ck imax e.j
      let (k, edge) ← splitC imax fuel (suffixMinC imax fuel e) l e.u e.i e.j s.edge
      let (c, r) ← pairsC imax fuel node rest ⟨s.parts ++ [(suffixMinC imax fuel e, l, e.u)], edge, s.mx + dmax a b⟩
      .ok (2 + k + c, r)

/-- The loop which adds the least costs (`test/SimpleSolver.cpp:94-109`) -/
def addMinimaC (imax : Int) (fuel : Nat) : List (FnC D × Int × Int) → D → Res (Nat × D)
  | [], res => .ok (0, res)
  | (f, l, r) :: rest, res => do
    let (k, m) ← ternaryC imax f fuel l r
    let (c, y) ← addMinimaC imax fuel rest (res + m)
    .ok (k + c, y)

/-- Evaluations of costs, and the steps of `MinCost` -/
structure Work where
  evals : Nat
  flow : CostScaling.Steps
  deriving DecidableEq

/-- `SimpleSolver::Solve` (`test/SimpleSolver.cpp:25-114`) -/
def solveC (imax : Int) (fuel : Nat) (n : Nat) (node : List (MuLimit D)) (edge : List (OmegaLimit D)) : Res (Work × Option D) := do
  let (k1, s) ← nodesC imax fuel node n 1 ⟨[], [], 0⟩
  match s with
  | none => .ok (⟨k1, 0⟩, none)
  | some s =>
    let (k2, s) ← pairsC imax fuel node edge s
    match s with
    | none => .ok (⟨k1 + k2, 0⟩, none)
    | some s => do
      let n1 ← ck imax (n + 1)
      let (c, _, res) ← CostScaling.minCostC imax fuel n1.toNat s.edge
      let (k3, res) ← addMinimaC imax fuel s.parts res
      if s.mx < res then .ok (⟨k1 + k2 + k3, c⟩, none) else .ok (⟨k1 + k2 + k3, c⟩, some res)

end SimpleSolver
end AHO
