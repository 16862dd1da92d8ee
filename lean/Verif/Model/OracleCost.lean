import Verif.Model.Oracle
import Verif.Model.SolverCost
/-!
# `bf_solve` with a count of the evaluations of cost functions

The functions of `Verif.Model.Oracle` once more, statement by statement, with the number of evaluations of cost functions. Between two evaluations
`bf_solve` does a constant amount of work, apart from the copy of `Omegas` (`test/test.cpp:15`) at the beginning. `Verif.Proof.OracleCost` shows
that the functions below, the counter removed, are those of the model.
-/

namespace AHO
namespace Oracle
variable {D : Type}

/-- `for(auto& it : Omegas) it.pre_processing();` (`test/test.cpp:18`) -/
def preAllC [LT D] [DecidableLT D] (imax : Int) (fuel : Nat) : List (OmegaLimit D) → Res (Nat × List (OmegaLimit D))
  | [] => .ok (0, [])
  | it :: rest => do
    let (c, it) ← it.preProcessingC imax fuel
    let (k, rest) ← preAllC imax fuel rest
    .ok (c.evals + k, it :: rest)

/-- The case `p == n` of `dfs` (`test/test.cpp:23-30`): one evaluation for every pair reached -/
def leafC [Add D] [LT D] [DecidableLT D] (imax : Int) (v : Vec Int) (ret : Option D) :
    List (OmegaLimit D) → D → Res (Nat × Option D)
  | [], sum => .ok (0, minRet ret sum)
  | it :: rest, sum => do
    let a ← v.rd it.i
    let b ← v.rd it.j
    let x ← ck imax (a - b)
    if it.u < x then .ok (0, ret)
    else do
      let y ← it.fn x
      let (k, r) ← leafC imax v ret rest (sum + y)
      .ok (k + 1, r)

/-- The lambda `dfs` (`test/test.cpp:21-35`): one evaluation for every iteration of its loop; the counter is part of the state. -/
def dfsC [Add D] [LT D] [DecidableLT D] (imax : Int) (fuel : Nat) (Mus : List (MuLimit D)) (Omegas : List (OmegaLimit D)) :
    Nat → Nat → D → Nat × Vec Int × Option D → Res (Nat × Vec Int × Option D)
  | 0, _, sum, (c, v, ret) => do
    let (k, ret) ← leafC imax v ret Omegas sum
    .ok (c + k, v, ret)
  | k + 1, p, sum, (c, v, ret) => do
    let m ← listRd Mus (p + 1)
    let v ← v.wr (p + 1) m.l
    whileLoop
      (fun st => do
        let i ← st.2.1.rd (p + 1)
        .ok (decide (i ≤ m.u)))
      (fun st => do
        let i ← st.2.1.rd (p + 1)
        let y ← m.fn i
        let st ← dfsC imax fuel Mus Omegas k (p + 1) (sum + y) (st.1 + 1, st.2)
        let i ← st.2.1.rd (p + 1)
        let i' ← ck imax (i + 1)
        let v ← st.2.1.wr (p + 1) i'
        .ok (st.1, v, st.2.2))
      fuel (c, v, ret)

/-- `bf_solve` (`test/test.cpp:13-41`), with the number of evaluations of cost functions -/
def bfSolveC [Zero D] [Add D] [LT D] [DecidableLT D] (imax : Int) (fuel : Nat) (n : Nat) (Mus : List (MuLimit D))
    (Omegas : List (OmegaLimit D)) : Res (Nat × Option D) := do
  let (c, Omegas) ← preAllC imax fuel Omegas
  let st ← dfsC imax fuel Mus Omegas n 0 0 (c, Vec.replicate (n + 1) 0, none)
  .ok (st.1, st.2.2)

end Oracle
end AHO
