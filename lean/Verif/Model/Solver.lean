import Verif.Model.Flow
/-!
# Model of `src/include/ProblemSolver.hpp` and `src/ProblemSolver.cpp`
-/

namespace AHO

/-- `size_t(-1)` on the usual 64-bit platforms. -/
def sizeMax : Nat := 2 ^ 64 - 1

/-- `class ProblemSolver` (`src/include/ProblemSolver.hpp:34-36`). -/
structure ProblemSolver (D : Type) where
  n : Nat
  Mus : List (MuLimit D)
  Omegas : List (OmegaLimit D)

namespace ProblemSolver
variable {D : Type}

/-- The state after a failed check in the constructor (`src/ProblemSolver.cpp:14-18`). -/
def invalid : ProblemSolver D := ⟨sizeMax, [], []⟩

/-- `for (size_t i = 1; i <= n; ++i) assert(Mus[i].l <= Mus[i].u);` (`src/ProblemSolver.cpp:24-26`):
whether all checks succeed; stops at the first failure. -/
def checkMus (Mus : List (MuLimit D)) : Nat → Nat → Res Bool
  | _, 0 => .ok true
  | i, cnt + 1 => do
    let m ← listRd Mus i
    if m.l ≤ m.u then checkMus Mus (i + 1) cnt else .ok false

section
variable [LT D] [DecidableLT D]

/-- The loop over `Omegas` (`src/ProblemSolver.cpp:28-38`): `none` when a check fails. -/
def processOmegas (imax : Int) (fuel : Nat) (n : Nat) (Mus : List (MuLimit D)) :
    List (OmegaLimit D) → Res (Option (List (OmegaLimit D)))
  | [] => .ok (some [])
  | it :: rest =>
    if ¬ (1 ≤ it.i ∧ it.i ≤ n) then .ok none
    else if ¬ (1 ≤ it.j ∧ it.j ≤ n) then .ok none
    else if ¬ (it.i ≠ it.j) then .ok none
    else if ¬ (it.l ≤ it.u) then .ok none
    else do
      let it ← it.preProcessing imax fuel
      let mi ← listRd Mus it.i
      let mj ← listRd Mus it.j
      let l' ← ck imax (mi.l - mj.u)
      let it := { it with l := l' }
      if ¬ (it.l ≤ it.u) then .ok none
      else do
        let r ← processOmegas imax fuel n Mus rest
        .ok (r.map (it :: ·))

/-- `ProblemSolver::ProblemSolver` (`src/ProblemSolver.cpp:6-40`). `n + 1` is computed in `size_t`. -/
def mk' (imax : Int) (fuel : Nat) (n : Nat) (Mus : List (MuLimit D)) (Omegas : List (OmegaLimit D)) :
    Res (ProblemSolver D) :=
  if ¬ (Mus.length = (n + 1) % 2 ^ 64) then .ok invalid
  else do
    let ok ← checkMus Mus 1 n
    if ¬ ok then .ok invalid
    else do
      let r ← processOmegas imax fuel n Mus Omegas
      match r with
      | none => .ok invalid
      | some Omegas => .ok ⟨n, Mus, Omegas⟩

end

/-- `std::map<std::pair<size_t, size_t>, OmegaLimit>` as an association list sorted by key. -/
abbrev LimitMap (D : Type) := List ((Nat × Nat) × OmegaLimit D)

/-- `<` of `std::pair<size_t, size_t>`. -/
def keyLt (a b : Nat × Nat) : Bool := a.1 < b.1 || (a.1 == b.1 && a.2 < b.2)

/-- `mp.find(k)` -/
def mapFind (mp : LimitMap D) (k : Nat × Nat) : Option (OmegaLimit D) :=
  match mp with
  | [] => none
  | (k', v) :: rest => if k' = k then some v else mapFind rest k

/-- `mp[k] = v` -/
def mapSet (mp : LimitMap D) (k : Nat × Nat) (v : OmegaLimit D) : LimitMap D :=
  match mp with
  | [] => [(k, v)]
  | (k', v') :: rest =>
    if k' = k then (k, v) :: rest
    else if keyLt k k' then (k, v) :: (k', v') :: rest
    else (k', v') :: mapSet rest k v

/-- The loop of `merge_limits` (`src/ProblemSolver.cpp:66-77`): `none` when a merge fails. -/
def mergeLoop [Add D] (imax : Int) :
    List (OmegaLimit D) → LimitMap D → Res (Option (LimitMap D))
  | [], mp => .ok (some mp)
  | it :: rest, mp => do
    let it ← if it.i < it.j then it.reverse imax else .ok it
    match mapFind mp (it.i, it.j) with
    | some v => do
      let (v', err) ← v.merge it
      if err then .ok none
      else mergeLoop imax rest (mapSet mp (it.i, it.j) v')
    | none => mergeLoop imax rest (mapSet mp (it.i, it.j) it)

/-- `for (size_t i = 1; i <= n; ++i) ret.push_back({Mus[i], i, 0});` (`src/ProblemSolver.cpp:84-85`). -/
def musEdges (Mus : List (MuLimit D)) : Nat → Nat → Res (List (OmegaLimit D))
  | _, 0 => .ok []
  | i, cnt + 1 => do
    let m ← listRd Mus i
    let r ← musEdges Mus (i + 1) cnt
    .ok ({ toMuLimit := m, i := i, j := 0 } :: r)

/-- `ProblemSolver::merge_limits` (`src/ProblemSolver.cpp:61-87`). -/
def mergeLimits [Add D] (imax : Int) (s : ProblemSolver D) : Res (Option (List (OmegaLimit D))) := do
  let r ← mergeLoop imax s.Omegas []
  match r with
  | none => .ok none
  | some mp => do
    let mus ← musEdges s.Mus 1 s.n
    .ok (some (mp.map Prod.snd ++ mus))

section
variable [Zero D] [One D] [Add D] [Sub D] [LT D] [DecidableLT D]

/-- The loop of `calc` (`src/ProblemSolver.cpp:93-97`). -/
def calcLoop (imax : Int) (fuel : Nat) :
    List (OmegaLimit D) → D × D × Int → Res (D × D × Int)
  | [], a => .ok a
  | it :: rest, (vcm, M, U) => do
    let a ← it.fn it.l
    let b ← it.fn it.u
    let m ← it.minimum imax fuel
    let w ← ck imax (it.u - it.l)
    calcLoop imax fuel rest (vcm + dmax a b, M + (dmax a b - m), max U w)

/-- `ProblemSolver::calc` (`src/ProblemSolver.cpp:89-99`): `valid_cost_max`, `M`, `U`. -/
def calc' (imax : Int) (fuel : Nat) (limits : List (OmegaLimit D)) : Res (D × D × Int) :=
  calcLoop imax fuel limits (0, 1, 0)

end

section
variable [Zero D] [One D] [Add D] [Sub D] [Neg D] [Mul D] [Div D] [IntCast D]
  [LT D] [LE D] [DecidableLT D] [DecidableLE D] [BEq D]

/-- `ProblemSolver::solve` (`src/ProblemSolver.cpp:42-59`). -/
def solve (imax : Int) (fuel : Nat) (s : ProblemSolver D) : Res (Option D) :=
  if s.n = sizeMax then .ok none
  else do
    let r ← mergeLimits imax s
    match r with
    | none => .ok none
    | some limits => do
      let (vcm, M, U) ← calc' imax fuel limits
      let flow ← Flow.mk' imax fuel s.n M U limits
      let (minCost, _) ← Flow.minCost imax fuel flow
      if vcm < minCost then .ok none else .ok (some minCost)

/-- `ProblemSolver(n, Mus, Omegas).solve()` -/
def run (imax : Int) (fuel : Nat) (n : Nat) (Mus : List (MuLimit D)) (Omegas : List (OmegaLimit D)) :
    Res (Option D) := do
  let s ← mk' imax fuel n Mus Omegas
  solve imax fuel s

end
end ProblemSolver
end AHO
