import Verif.Model.Define
/-!
# Model of the test oracle `bf_solve` (`test/test.cpp:13-41`)

`g` is an aggregate of `n`, `m`, `Mus`, `Omegas` and a description (`test/Graph.hpp:14-20`); `m` and the description are not used.
`INFINITY` is `none`: the costs are finite, so a sum is always smaller.
-/

namespace AHO
namespace Oracle
variable {D : Type}

/-- `for(auto& it : Omegas) it.pre_processing();` (`test/test.cpp:18`) -/
def preAll [LT D] [DecidableLT D] (imax : Int) (fuel : Nat) : List (OmegaLimit D) → Res (List (OmegaLimit D))
  | [] => .ok []
  | it :: rest => do
    let it ← it.preProcessing imax fuel
    let rest ← preAll imax fuel rest
    .ok (it :: rest)

/-- `std::min(ret, now_sum)`: the first argument unless the second is smaller (`test/test.cpp:29`). -/
def minRet [LT D] [DecidableLT D] (ret : Option D) (sum : D) : Option D :=
  match ret with
  | none => some sum
  | some r => some (if sum < r then sum else r)

/-- The case `p == n` of `dfs` (`test/test.cpp:23-30`): the new value of `ret`. -/
def leaf [Add D] [LT D] [DecidableLT D] (imax : Int) (v : Vec Int) (ret : Option D) : List (OmegaLimit D) → D → Res (Option D)
  | [], sum => .ok (minRet ret sum)
  | it :: rest, sum => do
    let a ← v.rd it.i
    let b ← v.rd it.j
    let x ← ck imax (a - b)
    if it.u < x then .ok ret
    else do
      let y ← it.fn x
      leaf imax v ret rest (sum + y)

/-- The lambda `dfs` (`test/test.cpp:21-35`) with `n - p` as first argument; the captured variables `v` and `ret` are the state.
The loop variable `i` is a reference to `v[p]`. -/
def dfs [Add D] [LT D] [DecidableLT D] (imax : Int) (fuel : Nat) (Mus : List (MuLimit D)) (Omegas : List (OmegaLimit D)) :
    Nat → Nat → D → Vec Int × Option D → Res (Vec Int × Option D)
  | 0, _, sum, (v, ret) => do
    let ret ← leaf imax v ret Omegas sum
    .ok (v, ret)
  | k + 1, p, sum, (v, ret) => do
    let m ← listRd Mus (p + 1)
    let v ← v.wr (p + 1) m.l
    whileLoop
      (fun st => do
        let i ← st.1.rd (p + 1)
        .ok (decide (i ≤ m.u)))
      (fun st => do
        let i ← st.1.rd (p + 1)
        let y ← m.fn i
        let st ← dfs imax fuel Mus Omegas k (p + 1) (sum + y) st
        let i ← st.1.rd (p + 1)
        let i' ← ck imax (i + 1)
        let v ← st.1.wr (p + 1) i'
        .ok (v, st.2))
      fuel (v, ret)

/-- `bf_solve` (`test/test.cpp:13-41`) -/
def bfSolve [Zero D] [Add D] [LT D] [DecidableLT D] (imax : Int) (fuel : Nat) (n : Nat) (Mus : List (MuLimit D))
    (Omegas : List (OmegaLimit D)) : Res (Option D) := do
  let Omegas ← preAll imax fuel Omegas
  let st ← dfs imax fuel Mus Omegas n 0 0 (Vec.replicate (n + 1) 0, none)
  .ok st.2

end Oracle
end AHO
