import Verif.Model.Define
import Verif.Model.CostScaling
/-!
# Model of `test/SimpleSolver.hpp`, `test/SimpleSolver.cpp` and `simple_solve` (`test/test.cpp:43-50`)

The second oracle of the tests: every convex cost is split into arcs of a network, one for each integer of its range.
`nan("")` is `none`. The macros at the top of the file (`test/SimpleSolver.cpp:5-9`) rename members of `MuLimit`, `OmegaLimit`. `D` stands for
`double`, whose values other than numbers are not treated specially: a result which is not a number would be `some` here.
-/

namespace AHO
namespace SimpleSolver
variable {D : Type} [Zero D] [One D] [Add D] [Sub D] [Neg D] [Mul D] [Div D] [IntCast D] [LT D] [LE D] [DecidableLT D]
  [DecidableLE D] [BEq D]

/-- `const double M = 1e9` (`test/SimpleSolver.hpp:7`) -/
def bigM : D := ((1000000000 : Int) : D)

/-- `bij` (`test/SimpleSolver.cpp:15-23`) -/
def bij (imax : Int) (f : Fn D) (l r x : Int) : Res D :=
  if x < l then .ok (-bigM)
  else if r ≤ x then .ok bigM
  else do
    let x1 ← ck imax (x + 1)
    let a ← f x1
    let b ← f x
    .ok (a - b)

/-- The ternary search (`test/SimpleSolver.cpp:61-71`, and the same text in lines 96-106) -/
def ternary (imax : Int) (f : Fn D) : Nat → Int → Int → Res D
  | 0, _, _ => .error .fuel
  | fuel + 1, l, r =>
    if l < r then do
      let d ← ck imax (r - l)
      let lmid ← ck imax (l + d.tdiv 3)
      let rmid ← ck imax (r - d.tdiv 3)
      let a ← f lmid
      let b ← f rmid
      if a ≤ b then do
        let r' ← ck imax (rmid - 1)
        ternary imax f fuel l r'
      else do
        let l' ← ck imax (lmid + 1)
        ternary imax f fuel l' r
    else do
      let a ← f l
      let b ← f r
      .ok (dmin a b)

/-- The lambda `E` (`test/SimpleSolver.cpp:59-72`): the least cost at or after `x` -/
def suffixMin (imax : Int) (fuel : Nat) (e : OmegaLimit D) : Fn D := fun x => ternary imax e.fn fuel (max e.l x) e.u

/-- The body of the loops which split a cost (`test/SimpleSolver.cpp:37-48`, `76-87`): the edges for the integer `j`. A node is the pair
`(i, 0)`. -/
def splitAt (imax : Int) (f : Fn D) (l r : Int) (u v : Nat) (j : Int) : Res (List (InputEdge D)) := do
  let j1 ← ck imax (j - 1)
  let lower ← bij imax f l r j1
  let upper ← bij imax f l r j
  if 0 ≤ lower then .ok [⟨u, v, j, upper - lower⟩]
  else do
    let nj ← ck imax (-j)
    if upper ≤ 0 then .ok [⟨v, u, nj, upper - lower⟩]
    else .ok [⟨u, v, j, upper⟩, ⟨v, u, nj, -lower⟩]

/-- The loops which split a cost (`test/SimpleSolver.cpp:36-49`, `75-88`); `edge` is the list so far. -/
def split (imax : Int) (fuel : Nat) (f : Fn D) (l r : Int) (u v : Nat) (edge : List (InputEdge D)) :
    Res (List (InputEdge D)) := do
  let s ← whileLoop (fun (s : Int × List (InputEdge D)) => .ok (decide (s.1 ≤ r)))
    (fun s => do
      let es ← splitAt imax f l r u v s.1
      let j ← ck imax (s.1 + 1)
      .ok (j, s.2 ++ es))
    fuel (l, edge)
  .ok s.2

/-- The local variables of `Solve` (`test/SimpleSolver.cpp:26-29`); `parts` joins `functions` and `limi`. -/
structure State (D : Type) where
  parts : List (Fn D × Int × Int)
  edge : List (InputEdge D)
  mx : D

/-- The loop over the nodes (`test/SimpleSolver.cpp:30-52`), from node `i`; `none` if it returns. -/
def nodes (imax : Int) (fuel : Nat) (node : List (MuLimit D)) : Nat → Nat → State D → Res (Option (State D))
  | 0, _, s => .ok (some s)
  | cnt + 1, i, s => do
    let e ← listRd node i
    if e.u < e.l then .ok none
    else do
      let a ← e.fn e.l
      let b ← e.fn e.u
      let edge ← split imax fuel e.fn e.l e.u i 0 s.edge
      nodes imax fuel node cnt (i + 1) ⟨s.parts ++ [(e.fn, e.l, e.u)], edge, s.mx + dmax a b⟩

/-- The loop over the pairs (`test/SimpleSolver.cpp:53-91`); `none` if it returns. -/
def pairs (imax : Int) (fuel : Nat) (node : List (MuLimit D)) : List (OmegaLimit D) → State D → Res (Option (State D))
  | [], s => .ok (some s)
  | e :: rest, s =>
    if e.u < e.l then .ok none
    else do
      let a ← e.fn e.l
      let b ← e.fn e.u
      let mi ← listRd node e.i
      let mj ← listRd node e.j
      let d ← ck imax (mi.l - mj.u)
      let l := min e.l d
      let _ ← ck imax e.i
      let _ ← ck imax e.j
      let edge ← split imax fuel (suffixMin imax fuel e) l e.u e.i e.j s.edge
      pairs imax fuel node rest ⟨s.parts ++ [(suffixMin imax fuel e, l, e.u)], edge, s.mx + dmax a b⟩

/-- The loop which adds the least costs (`test/SimpleSolver.cpp:94-109`) -/
def addMinima (imax : Int) (fuel : Nat) : List (Fn D × Int × Int) → D → Res D
  | [], res => .ok res
  | (f, l, r) :: rest, res => do
    let m ← ternary imax f fuel l r
    addMinima imax fuel rest (res + m)

/-- `SimpleSolver::Solve` (`test/SimpleSolver.cpp:25-114`) on `Graph(n, _, node, edge)`. The flag returned by `MinCost` is ignored, as
in line 93. -/
def solve (imax : Int) (fuel : Nat) (n : Nat) (node : List (MuLimit D)) (edge : List (OmegaLimit D)) : Res (Option D) := do
  match ← nodes imax fuel node n 1 ⟨[], [], 0⟩ with
  | none => .ok none
  | some s =>
    match ← pairs imax fuel node edge s with
    | none => .ok none
    | some s => do
      let n1 ← ck imax (n + 1)
      let (_, res) ← CostScaling.minCost imax fuel n1.toNat s.edge
      let res ← addMinima imax fuel s.parts res
      if s.mx < res then .ok none else .ok (some res)

end SimpleSolver
end AHO
