import Verif.Model.Solver
/-!
# The function objects of the limits

In the model a callback is a function. In the program it is an object of type `std::function`, and `pre_processing`, `reverse` and `merge` put lambdas
around it which hold copies of the objects they call. (Assigning such a lambda to `fn` moves it, and destroys the object `fn` was.) Here are these objects and the functions of `Verif.Model.Define` and `Verif.Model.Solver` which
make them, with the number of objects copied. `Verif.Proof.Closure` shows that the functions of the objects are those of the model.
-/

namespace AHO

/-- The objects of type `Fn` (`src/include/ProblemDefine.hpp:17`) before `Flow::min_cost`. -/
inductive Closure (D : Type)
  | /-- supplied by the caller -/ user (f : Fn D)
  | /-- `[min_point, fn(fn)](int x) { return fn(std::max(min_point, x)); }` (`src/ProblemDefine.cpp:23-25`) -/ pre (m : Int) (c : Closure D)
  | /-- `[fn(fn)](int x) { return fn(-x); }` (`src/ProblemDefine.cpp:38`) -/ rev (c : Closure D)
  | /-- `[fn1(fn), fn2(other.fn)](int x) { return fn1(x) + fn2(x); }` (`src/ProblemDefine.cpp:46-48`) -/ sum (c d : Closure D)

/-- What an evaluation of a function object does: how many objects are called (itself included), how many of them are callbacks of the caller,
and how deep the calls are nested. -/
structure Calls where
  objects : Nat
  callbacks : Nat
  depth : Nat
  deriving DecidableEq

namespace Closure
variable {D : Type}

/-- the number of objects which a copy of `c` copies: the copy constructor of `std::function` copies the lambda and what it holds -/
def objects : Closure D → Nat
  | .user _ => 1
  | .pre _ c => c.objects + 1
  | .rev c => c.objects + 1
  | .sum c d => c.objects + d.objects + 1

/-- `operator()` with the calls it makes -/
def call [Add D] (imax : Int) : Closure D → Int → Res (Calls × D)
  | .user f, x => do
    let v ← f x
    .ok (⟨1, 1, 1⟩, v)
  | .pre m c, x => do
    let (n, v) ← c.call imax (max m x)
    .ok (⟨n.objects + 1, n.callbacks, n.depth + 1⟩, v)
  | .rev c, x => do
    let y ← ck imax (-x)
    let (n, v) ← c.call imax y
    .ok (⟨n.objects + 1, n.callbacks, n.depth + 1⟩, v)
  | .sum c d, x => do
    let (n, a) ← c.call imax x
    let (m, b) ← d.call imax x
    .ok (⟨n.objects + m.objects + 1, n.callbacks + m.callbacks, max n.depth m.depth + 1⟩, a + b)

/-- `operator()` without the calls -/
def fn [Add D] (imax : Int) (c : Closure D) : Fn D := fun x => (c.call imax x).map Prod.snd

end Closure

/-- `struct OmegaLimit` (`src/include/ProblemDefine.hpp:32-37`) with the object `fn` -/
structure ClosureLimit (D : Type) where
  l : Int
  u : Int
  fn : Closure D
  i : Nat
  j : Nat

namespace ClosureLimit
variable {D : Type}

/-- the limit of the model -/
def limit [Add D] (imax : Int) (e : ClosureLimit D) : OmegaLimit D := { l := e.l, u := e.u, fn := e.fn.fn imax, i := e.i, j := e.j }

/-- the limit as supplied by the caller -/
def ofLimit (e : OmegaLimit D) : ClosureLimit D := { l := e.l, u := e.u, fn := .user e.fn, i := e.i, j := e.j }

/-- `OmegaLimit::pre_processing` (`src/ProblemDefine.cpp:18-26`); the lambda holds a copy of `fn` -/
def preProcessing [Add D] [LT D] [DecidableLT D] (imax : Int) (fuel : Nat) (e : ClosureLimit D) : Res (Nat × ClosureLimit D) := do
  let minPoint ← partitionPoint imax (descends imax (e.fn.fn imax)) fuel e.l e.u
  .ok (e.fn.objects, { e with fn := .pre minPoint e.fn })

/-- `OmegaLimit::reverse` (`src/ProblemDefine.cpp:36-40`); the lambda holds a copy of `fn` -/
def reverse (imax : Int) (e : ClosureLimit D) : Res (Nat × ClosureLimit D) := do
  let l' ← ck imax (-e.u)
  let u' ← ck imax (-e.l)
  .ok (e.fn.objects, { l := l', u := u', fn := .rev e.fn, i := e.j, j := e.i })

/-- `OmegaLimit::merge` (`src/ProblemDefine.cpp:42-52`); the lambda holds copies of `fn` and `other.fn` -/
def merge (e other : ClosureLimit D) : Res (Nat × ClosureLimit D × Bool) :=
  let l' := max e.l other.l
  let u' := min e.u other.u
  if e.i = other.i ∧ e.j = other.j then
    .ok (e.fn.objects + other.fn.objects, { l := l', u := u', fn := .sum e.fn other.fn, i := e.i, j := e.j }, !decide (l' ≤ u'))
  else .error .assertFail

end ClosureLimit

namespace ProblemSolver
variable {D : Type}

/-- The loop over `Omegas` in the constructor (`src/ProblemSolver.cpp:28-38`), with the number of objects copied. -/
def processClosures [Add D] [LT D] [DecidableLT D] (imax : Int) (fuel : Nat) (n : Nat) (Mus : List (MuLimit D)) :
    List (ClosureLimit D) → Res (Nat × Option (List (ClosureLimit D)))
  | [] => .ok (0, some [])
  | it :: rest =>
    if ¬ (1 ≤ it.i ∧ it.i ≤ n) then .ok (0, none)
    else if ¬ (1 ≤ it.j ∧ it.j ≤ n) then .ok (0, none)
    else if ¬ (it.i ≠ it.j) then .ok (0, none)
    else if ¬ (it.l ≤ it.u) then .ok (0, none)
    else do
      let (k, it) ← it.preProcessing imax fuel
      let mi ← listRd Mus it.i
      let mj ← listRd Mus it.j
      let l' ← ck imax (mi.l - mj.u)
      let it := { it with l := l' }
      if ¬ (it.l ≤ it.u) then .ok (k, none)
      else do
        let (k', r) ← processClosures imax fuel n Mus rest
        .ok (k + k', r.map (it :: ·))

/-- `std::map<std::pair<size_t, size_t>, OmegaLimit>` as an association list sorted by key -/
abbrev ClosureMap (D : Type) := List ((Nat × Nat) × ClosureLimit D)

/-- `mp.find(k)` -/
def closureFind (mp : ClosureMap D) (k : Nat × Nat) : Option (ClosureLimit D) :=
  match mp with
  | [] => none
  | (k', v) :: rest => if k' = k then some v else closureFind rest k

/-- `mp[k] = v` -/
def closureSet (mp : ClosureMap D) (k : Nat × Nat) (v : ClosureLimit D) : ClosureMap D :=
  match mp with
  | [] => [(k, v)]
  | (k', v') :: rest =>
    if k' = k then (k, v) :: rest
    else if keyLt k k' then (k, v) :: (k', v') :: rest
    else (k', v') :: closureSet rest k v

/-- The loop of `merge_limits` (`src/ProblemSolver.cpp:66-77`) with the number of objects copied: `for (auto it: Omegas)` copies the limit,
`reverse` and `merge` copy what their lambdas hold, and `mp[{it.i, it.j}] = it` copies the limit. -/
def mergeClosures (imax : Int) : List (ClosureLimit D) → ClosureMap D → Res (Nat × Option (ClosureMap D))
  | [], mp => .ok (0, some mp)
  | it :: rest, mp => do
    let k0 := it.fn.objects
    let (k1, it) ← if it.i < it.j then it.reverse imax else .ok (0, it)
    match closureFind mp (it.i, it.j) with
    | some v => do
      let (k2, v', err) ← v.merge it
      if err then .ok (k0 + k1 + k2, none)
      else do
        let (k3, r) ← mergeClosures imax rest (closureSet mp (it.i, it.j) v')
        .ok (k0 + k1 + k2 + k3, r)
    | none => do
      let k2 := it.fn.objects
      let (k3, r) ← mergeClosures imax rest (closureSet mp (it.i, it.j) it)
      .ok (k0 + k1 + k2 + k3, r)

/-- The limits supplied by the caller for the nodes, as `merge_limits` appends them (`src/ProblemSolver.cpp:84-85`). -/
def musClosures (Mus : List (MuLimit D)) : Nat → Nat → Res (List (ClosureLimit D))
  | _, 0 => .ok []
  | i, cnt + 1 => do
    let m ← listRd Mus i
    let r ← musClosures Mus (i + 1) cnt
    .ok (.ofLimit { toMuLimit := m, i := i, j := 0 } :: r)

/-- The constructor (`src/ProblemSolver.cpp:6-40`) for valid nodes followed by `merge_limits` (`src/ProblemSolver.cpp:61-87`): the merged limits with their
function objects, and the number of objects copied in the two loops. Not counted: copying the vectors as wholes. -/
def closureLimits [Add D] [LT D] [DecidableLT D] (imax : Int) (fuel : Nat) (n : Nat) (Mus : List (MuLimit D)) (Omegas : List (OmegaLimit D)) :
    Res (Nat × Option (List (ClosureLimit D))) := do
  let (k, r) ← processClosures imax fuel n Mus (Omegas.map .ofLimit)
  match r with
  | none => .ok (k, none)
  | some es => do
    let (k', r) ← mergeClosures imax es []
    match r with
    | none => .ok (k + k', none)
    | some mp => do
      let mus ← musClosures Mus 1 n
      .ok (k + k', some (mp.map Prod.snd ++ mus))

end ProblemSolver
end AHO
