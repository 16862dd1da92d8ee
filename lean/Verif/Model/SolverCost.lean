import Verif.Model.FlowCost
import Verif.Model.Solver
/-!
# `ProblemSolver` with a count of its steps

The functions of `Verif.Model.Define`, `Verif.Model.Flow` and `Verif.Model.Solver` outside the phases once more, statement by statement, with the
counters of `Cost`. Every statement which is not counted takes constant time, apart from the operations on `std::map`, which compare at most
logarithmically many keys, and the copying of vectors and of `std::function` objects. `Verif.Proof.SolverCost` shows that the functions below, the
counters removed, are those of the model.
-/

namespace AHO

/-- `partition_point` (`src/ProblemDefine.cpp:7-16`), with the number of its iterations; each of them calls `pred` once -/
def partitionPointC (imax : Int) (pred : Int → Res Bool) : Nat → Int → Int → Res (Nat × Int)
  | 0, _, _ => .error .fuel
  | fuel + 1, l, r =>
    if l ≠ r then do
      let d ← ck imax (r - l)
      let mid ← ck imax (l + d.tdiv 2)
      let b ← pred mid
      if b then do
        let l' ← ck imax (mid + 1)
        let (k, x) ← partitionPointC imax pred fuel l' r
        .ok (k + 1, x)
      else do
        let (k, x) ← partitionPointC imax pred fuel l mid
        .ok (k + 1, x)
    else .ok (0, l)

section
variable {D : Type} [LT D] [DecidableLT D]

/-- `OmegaLimit::pre_processing` (`src/ProblemDefine.cpp:18-26`): every call of the lambda evaluates `fn` twice. -/
def OmegaLimit.preProcessingC (imax : Int) (fuel : Nat) (e : OmegaLimit D) : Res (Cost × OmegaLimit D) := do
  let (k, minPoint) ← partitionPointC imax (descends imax e.fn) fuel e.l e.u
  .ok (⟨0, 0, 0, k, 2 * k⟩, { e with fn := fun x => e.fn (max minPoint x) })

/-- `OmegaLimit::min` (`src/ProblemDefine.cpp:28-34`) -/
def OmegaLimit.minimumC (imax : Int) (fuel : Nat) (e : OmegaLimit D) : Res (Cost × D) := do
  let (k, minPoint) ← partitionPointC imax (descends imax e.fn) fuel e.l e.u
  let v ← e.fn minPoint
  .ok (⟨0, 0, 0, k, 2 * k + 1⟩, v)

end

namespace Flow
variable {D : Type} [Zero D] [One D] [Add D] [Sub D] [Neg D] [BEq D] [LT D] [LE D] [DecidableLT D] [DecidableLE D]

/-- The loop for `epsilon` (`src/Flow.cpp:10-13`), with the number of its iterations -/
def epsilonLoopC (imax : Int) (n : Nat) (U : Int) (fuel : Nat) (eps : Int) : Res (Nat × Int) :=
  whileLoop
    (fun (ke : Nat × Int) => do
      let n1 ← toInt imax (n + 1)
      let a ← ck imax (2 * n1)
      let b ← ck imax (a * U)
      .ok (decide (ke.2 < b)))
    (fun ke => do
      let eps ← ck imax (ke.2 * 2)
      if eps ≠ 0 then .ok (ke.1 + 1, eps) else .error .assertFail)
    fuel (0, eps)

/-- `Flow::Flow` (`src/Flow.cpp:6-28`): the vectors of the nodes have `n + 1` elements each and are counted once; the loop which doubles the edges makes
`limits.size()` iterations, that over the doubled edges twice as many. -/
def mkC (imax : Int) (fuel : Nat) (n : Nat) (M : D) (U : Int) (limits : List (OmegaLimit D)) : Res (Cost × Flow D) := do
  let (k, eps) ← epsilonLoopC imax n U fuel 1
  let n1 ← toInt imax (n + 1)
  if ¬ n1 = 0 then
    if U ≤ (eps.tdiv 2).tdiv n1 then do
      let E := Vec.ofList limits default
      let E := E.resize (E.size * 2) default
      let E ← doubleEdges imax limits.length E
      let G ← forRange (fun (G : Vec (List Nat)) e_id => do
          let e ← E.rd e_id
          let g ← G.rd e.i
          G.wr e.i (g ++ [e_id]))
        0 E.size (Vec.replicate (n + 1) [])
      .ok (⟨0, 0, 0, k + (n + 1) + limits.length + E.size, 0⟩, {
        n := n
        M := M
        epsilon := eps
        nodes := Vec.replicate (n + 1) LCT.initNode
        imbalances := Vec.replicate (n + 1) 0
        currentEdge := Vec.replicate (n + 1) 0
        uq := UQ.mk' (n + 1)
        fa := Vec.replicate (n + 1) none
        edges := E
        flows := Vec.replicate E.size 0
        G := G
        scaling := Vec.replicate (n + 1) 0 })
    else .error .assertFail
  else .error .divZero

variable [Mul D] [Div D] [IntCast D]

/-- Body of the final loop of `Flow::min_cost` (`src/Flow.cpp:37-42`) -/
def addEdgeMinC (imax : Int) (fuel : Nat) (as : D × Flow D) (e_id : Nat) : Res (Cost × D × Flow D) := do
  let (answer, s) := as
  let e ← s.edges.rd e_id
  let x ← s.flows.rd e_id
  let e' : OmegaLimit D := { e with fn := fun w => do let v ← e.fn w; .ok (v - x * (w : D)) }
  let E ← s.edges.wr e_id e'
  let (c, m) ← e'.minimumC imax fuel
  .ok (⟨0, 0, 0, 1, 0⟩ + c, answer + m, { s with edges := E })

/-- `Flow::min_cost` (`src/Flow.cpp:30-46`) -/
def minCostC (imax : Int) (fuel : Nat) (s : Flow D) : Res (Cost × D × Flow D) := do
  let (c1, s) ← phasesC imax fuel s
  let cas ← forRange (fun (cas : Cost × D × Flow D) i => do let (c, as) ← addEdgeMinC imax fuel cas.2 i; .ok (cas.1 + c, as))
    0 s.edges.size (0, 0, s)
  .ok (c1 + cas.1, cas.2.1 / ((2 : Int) : D), cas.2.2)

end Flow

namespace ProblemSolver
variable {D : Type}

/-- The first loop of the constructor (`src/ProblemSolver.cpp:24-26`), with the number of its iterations -/
def checkMusC (Mus : List (MuLimit D)) : Nat → Nat → Res (Nat × Bool)
  | _, 0 => .ok (0, true)
  | i, cnt + 1 => do
    let m ← listRd Mus i
    if m.l ≤ m.u then do
      let (k, b) ← checkMusC Mus (i + 1) cnt
      .ok (k + 1, b)
    else .ok (1, false)

section
variable [LT D] [DecidableLT D]

/-- The loop over `Omegas` (`src/ProblemSolver.cpp:28-38`) -/
def processOmegasC (imax : Int) (fuel : Nat) (n : Nat) (Mus : List (MuLimit D)) :
    List (OmegaLimit D) → Res (Cost × Option (List (OmegaLimit D)))
  | [] => .ok (0, some [])
  | it :: rest =>
    if ¬ (1 ≤ it.i ∧ it.i ≤ n) then .ok (⟨0, 0, 0, 1, 0⟩, none)
    else if ¬ (1 ≤ it.j ∧ it.j ≤ n) then .ok (⟨0, 0, 0, 1, 0⟩, none)
    else if ¬ (it.i ≠ it.j) then .ok (⟨0, 0, 0, 1, 0⟩, none)
    else if ¬ (it.l ≤ it.u) then .ok (⟨0, 0, 0, 1, 0⟩, none)
    else do
      let (c1, it) ← it.preProcessingC imax fuel
      let mi ← listRd Mus it.i
      let mj ← listRd Mus it.j
      let l' ← ck imax (mi.l - mj.u)
      let it := { it with l := l' }
      if ¬ (it.l ≤ it.u) then .ok (⟨0, 0, 0, 1, 0⟩ + c1, none)
      else do
        let (c2, r) ← processOmegasC imax fuel n Mus rest
        .ok (⟨0, 0, 0, 1, 0⟩ + c1 + c2, r.map (it :: ·))

/-- `ProblemSolver::ProblemSolver` (`src/ProblemSolver.cpp:6-40`) -/
def mkC (imax : Int) (fuel : Nat) (n : Nat) (Mus : List (MuLimit D)) (Omegas : List (OmegaLimit D)) :
    Res (Cost × ProblemSolver D) :=
  if ¬ (Mus.length = (n + 1) % 2 ^ 64) then .ok (0, invalid)
  else do
    let (k, ok) ← checkMusC Mus 1 n
    if ¬ ok then .ok (⟨0, 0, 0, k, 0⟩, invalid)
    else do
      let (c, r) ← processOmegasC imax fuel n Mus Omegas
      match r with
      | none => .ok (⟨0, 0, 0, k, 0⟩ + c, invalid)
      | some Omegas => .ok (⟨0, 0, 0, k, 0⟩ + c, ⟨n, Mus, Omegas⟩)

end

/-- The loop of `merge_limits` (`src/ProblemSolver.cpp:66-77`), with the number of its iterations -/
def mergeLoopC [Add D] (imax : Int) : List (OmegaLimit D) → LimitMap D → Res (Nat × Option (LimitMap D))
  | [], mp => .ok (0, some mp)
  | it :: rest, mp => do
    let it ← if it.i < it.j then it.reverse imax else .ok it
    match mapFind mp (it.i, it.j) with
    | some v => do
      let (v', err) ← v.merge it
      if err then .ok (1, none)
      else do
        let (k, r) ← mergeLoopC imax rest (mapSet mp (it.i, it.j) v')
        .ok (k + 1, r)
    | none => do
      let (k, r) ← mergeLoopC imax rest (mapSet mp (it.i, it.j) it)
      .ok (k + 1, r)

/-- `ProblemSolver::merge_limits` (`src/ProblemSolver.cpp:61-87`): the loops at its end make `mp.size()` and `n` iterations. -/
def mergeLimitsC [Add D] (imax : Int) (s : ProblemSolver D) : Res (Cost × Option (List (OmegaLimit D))) := do
  let (k, r) ← mergeLoopC imax s.Omegas []
  match r with
  | none => .ok (⟨0, 0, 0, k, 0⟩, none)
  | some mp => do
    let mus ← musEdges s.Mus 1 s.n
    .ok (⟨0, 0, 0, k + mp.length + s.n, 0⟩, some (mp.map Prod.snd ++ mus))

section
variable [Zero D] [One D] [Add D] [Sub D] [LT D] [DecidableLT D]

/-- The loop of `calc` (`src/ProblemSolver.cpp:93-97`). It evaluates `fn` twice at each end of the range. -/
def calcLoopC (imax : Int) (fuel : Nat) : List (OmegaLimit D) → D × D × Int → Res (Cost × D × D × Int)
  | [], a => .ok (0, a)
  | it :: rest, (vcm, M, U) => do
    let a ← it.fn it.l
    let b ← it.fn it.u
    let (c1, m) ← it.minimumC imax fuel
    let w ← ck imax (it.u - it.l)
    let (c2, r) ← calcLoopC imax fuel rest (vcm + dmax a b, M + (dmax a b - m), max U w)
    .ok (⟨0, 0, 0, 1, 4⟩ + c1 + c2, r)

/-- `ProblemSolver::calc` (`src/ProblemSolver.cpp:89-99`) -/
def calcC (imax : Int) (fuel : Nat) (limits : List (OmegaLimit D)) : Res (Cost × D × D × Int) :=
  calcLoopC imax fuel limits (0, 1, 0)

end

section
variable [Zero D] [One D] [Add D] [Sub D] [Neg D] [Mul D] [Div D] [IntCast D]
  [LT D] [LE D] [DecidableLT D] [DecidableLE D] [BEq D]

/-- `ProblemSolver::solve` (`src/ProblemSolver.cpp:42-59`) -/
def solveC (imax : Int) (fuel : Nat) (s : ProblemSolver D) : Res (Cost × Option D) :=
  if s.n = sizeMax then .ok (0, none)
  else do
    let (c1, r) ← mergeLimitsC imax s
    match r with
    | none => .ok (c1, none)
    | some limits => do
      let (c2, vcm, M, U) ← calcC imax fuel limits
      let (c3, flow) ← Flow.mkC imax fuel s.n M U limits
      let (c4, minCost, _) ← Flow.minCostC imax fuel flow
      .ok (c1 + c2 + c3 + c4, if vcm < minCost then none else some minCost)

/-- `ProblemSolver(n, Mus, Omegas).solve()` -/
def runC (imax : Int) (fuel : Nat) (n : Nat) (Mus : List (MuLimit D)) (Omegas : List (OmegaLimit D)) : Res (Cost × Option D) := do
  let (c1, s) ← mkC imax fuel n Mus Omegas
  let (c2, r) ← solveC imax fuel s
  .ok (c1 + c2, r)

end
end ProblemSolver
end AHO
