import Verif.Model.Base
/-!
# Model of `src/include/ProblemDefine.hpp` and `src/ProblemDefine.cpp`
-/

namespace AHO

/-- `using Fn = std::function<Data(int)>` (`src/include/ProblemDefine.hpp:17`). A callback is pure and
may fail (`Err.callback`) on arguments it does not accept. -/
abbrev Fn (D : Type) := Int → Res D

/-- `struct MuLimit` (`src/include/ProblemDefine.hpp:21-24`). -/
structure MuLimit (D : Type) where
  l : Int
  u : Int
  fn : Fn D

/-- `struct OmegaLimit : MuLimit` (`src/include/ProblemDefine.hpp:32-37`). -/
structure OmegaLimit (D : Type) extends MuLimit D where
  i : Nat
  j : Nat

/-- `OmegaLimit{}`: an empty `std::function` throws when called. -/
instance {D : Type} : Inhabited (OmegaLimit D) :=
  ⟨{ l := 0, u := 0, fn := fun _ => .error .callback, i := 0, j := 0 }⟩

/-- `partition_point` (`src/ProblemDefine.cpp:7-16`). -/
def partitionPoint (imax : Int) (pred : Int → Res Bool) : Nat → Int → Int → Res Int
  | 0, _, _ => .error .fuel
  | fuel + 1, l, r =>
    if l ≠ r then do
      let d ← ck imax (r - l)
      let mid ← ck imax (l + d.tdiv 2)
      let b ← pred mid
      if b then do
        let l' ← ck imax (mid + 1)
        partitionPoint imax pred fuel l' r
      else
        partitionPoint imax pred fuel l mid
    else .ok l

section
variable {D : Type} [LT D] [DecidableLT D]

/-- The lambda `[this](int x) { return fn(x) > fn(x + 1); }`
(`src/ProblemDefine.cpp:20-22` and `30-32`). -/
def descends (imax : Int) (fn : Fn D) (x : Int) : Res Bool := do
  let a ← fn x
  let x1 ← ck imax (x + 1)
  let b ← fn x1
  .ok (decide (b < a))

/-- `OmegaLimit::pre_processing` (`src/ProblemDefine.cpp:18-26`). -/
def OmegaLimit.preProcessing (imax : Int) (fuel : Nat) (e : OmegaLimit D) : Res (OmegaLimit D) := do
  let minPoint ← partitionPoint imax (descends imax e.fn) fuel e.l e.u
  .ok { e with fn := fun x => e.fn (max minPoint x) }

/-- `OmegaLimit::min` (`src/ProblemDefine.cpp:28-34`). -/
def OmegaLimit.minimum (imax : Int) (fuel : Nat) (e : OmegaLimit D) : Res D := do
  let minPoint ← partitionPoint imax (descends imax e.fn) fuel e.l e.u
  e.fn minPoint

end

/-- `OmegaLimit::reverse` (`src/ProblemDefine.cpp:36-40`). -/
def OmegaLimit.reverse {D : Type} (imax : Int) (e : OmegaLimit D) : Res (OmegaLimit D) := do
  let l' ← ck imax (-e.u)
  let u' ← ck imax (-e.l)
  .ok { l := l', u := u', fn := fun x => ck imax (-x) >>= e.fn, i := e.j, j := e.i }

/-- `OmegaLimit::merge` (`src/ProblemDefine.cpp:42-52`): the merged limit and the error flag. -/
def OmegaLimit.merge {D : Type} [Add D] (e other : OmegaLimit D) : Res (OmegaLimit D × Bool) :=
  let l' := max e.l other.l
  let u' := min e.u other.u
  let fn' : Fn D := fun x => do
    let a ← e.fn x
    let b ← other.fn x
    .ok (a + b)
  if e.i = other.i ∧ e.j = other.j then
    .ok ({ l := l', u := u', fn := fn', i := e.i, j := e.j }, !decide (l' ≤ u'))
  else .error .assertFail

end AHO
