/-!
# Base of the model: outcomes, checked integers, vectors, loops

Nothing here models one particular function of the code base; these are the C++ primitives on which
the other model files are built.
-/

namespace AHO

/-- The ways in which an execution can fail to produce a value. Undefined behaviour is a distinct
outcome (`oob`, `null`, `overflow`, `emptyQueue`, `divZero`), and so are failed `assert`s, a call of a
user callback outside its domain, and a loop that did not finish within the given fuel. -/
inductive Err
  | /-- access outside a `std::vector` -/ oob
  | /-- null pointer dereference -/ null
  | /-- signed overflow, or a `size_t` to `int` conversion that loses the value -/ overflow
  | /-- `front`/`pop` on an empty `std::queue` -/ emptyQueue
  | /-- a failed `assert` -/ assertFail
  | /-- integer division by zero -/ divZero
  | /-- the user callback does not accept this argument (or is an empty `std::function`) -/ callback
  | /-- the loop needs more iterations than the fuel allows -/ fuel
deriving DecidableEq, Repr

/-- Result of a modelled function. -/
abbrev Res (α : Type) := Except Err α

/-- C++ `int` with maximal value `imax` (two's complement): the value if it is representable,
undefined behaviour otherwise. The code uses `int`, that is `imax = 2^31 - 1`; the header
`src/include/ProblemDefine.hpp:10-11` states a capacity requirement, so `imax` is a parameter. -/
def ck (imax : Int) (x : Int) : Res Int :=
  if -imax - 1 ≤ x ∧ x ≤ imax then .ok x else .error .overflow

/-- `std::vector<α>` of fixed size: a size and its contents. Indices beyond the size are junk that
`rd`/`wr` refuse to touch. -/
structure Vec (α : Type) where
  size : Nat
  get : Nat → α

namespace Vec
variable {α : Type}

/-- `v[i]` as an rvalue; out of bounds is undefined behaviour. -/
def rd (v : Vec α) (i : Nat) : Res α :=
  if i < v.size then .ok (v.get i) else .error .oob

/-- the contents after `v[i] = x` -/
def set (v : Vec α) (i : Nat) (x : α) : Vec α :=
  ⟨v.size, fun k => if k = i then x else v.get k⟩

/-- `v[i] = x`; out of bounds is undefined behaviour. -/
def wr (v : Vec α) (i : Nat) (x : α) : Res (Vec α) :=
  if i < v.size then .ok (v.set i x) else .error .oob

/-- `std::vector<α>(n, x)` -/
def replicate (n : Nat) (x : α) : Vec α := ⟨n, fun _ => x⟩

/-- `v.resize(n, x)` -/
def resize (v : Vec α) (n : Nat) (x : α) : Vec α :=
  ⟨n, fun k => if k < v.size then v.get k else x⟩

/-- a vector with the elements of a list; `x` fills the junk positions -/
def ofList (l : List α) (x : α) : Vec α := ⟨l.length, fun k => l.getD k x⟩

/-- the elements in order -/
def toList (v : Vec α) : List α := (List.range v.size).map v.get

end Vec

/-- `l[i]` for a vector represented by a list. -/
def listRd {α : Type} (l : List α) (i : Nat) : Res α :=
  match l[i]? with
  | some x => .ok x
  | none => .error .oob

/-- `while (cond) body`, at most `fuel` tests of the condition. -/
def whileLoop {σ : Type} (cond : σ → Res Bool) (body : σ → Res σ) : Nat → σ → Res σ
  | 0, _ => .error .fuel
  | fuel + 1, s =>
    cond s >>= fun b =>
      if b then body s >>= fun s' => whileLoop cond body fuel s' else .ok s

/-- `for (size_t i = lo; i < lo + cnt; ++i) body` -/
def forRange {σ : Type} (body : σ → Nat → Res σ) : Nat → Nat → σ → Res σ
  | _, 0, s => .ok s
  | lo, cnt + 1, s => body s lo >>= fun s' => forRange body (lo + 1) cnt s'

/-- `std::max` on `Data`: returns the first argument unless it is smaller. -/
def dmax {D : Type} [LT D] [DecidableLT D] (a b : D) : D := if a < b then b else a

end AHO
