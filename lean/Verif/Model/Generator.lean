import Verif.Model.Define
/-!
# Model of the generator of the random tests

`TinyGen` (`test/generator.cpp`), the class `Graph` of `3rd/generator/gen.h` as far as `TinyGen` uses it, and the random numbers of
`3rd/generator/testlib.h`. `int` has 32 bits here and `long long` 64.
-/

namespace AHO
namespace Gen

/-- The global variables: the field `seed` of `rnd` (`3rd/generator/testlib.h:700`), and the queue `fun` (`test/generator.cpp:9`). The entry
`(a, b, c)` of the queue stands for the numbers `a / 4.0`, `b / 4.0`, `c / 4.0`. -/
structure State where
  seed : Nat
  funs : List (Int × Int × Int)

end Gen

/-- A computation with these globals. -/
abbrev Gen (α : Type) := StateT Gen.State Res α

namespace Gen

/-- `INT_MAX` -/
def intMax : Int := 2 ^ 31 - 1

/-- an arithmetic operation on `int` -/
def int (x : Int) : Gen Int := ck intMax x

/-- `random_t::nextBits` for `bits <= 48` (`3rd/generator/testlib.h:707-709`, constants `1229-1231`). `& mask` is taken as the remainder modulo
`2^48`; the wrap-around of the product modulo `2^64` does not show there. -/
def nextBits (bits : Nat) : Gen Nat := fun s =>
  let seed := (s.seed * 0x5DEECE66D + 0xB) % 2 ^ 48
  .ok (seed / 2 ^ (48 - bits), { s with seed := seed })

/-- `random_t::nextBits(63)` (`3rd/generator/testlib.h:710-720`); `version` is -1 (`1232`). -/
def nextBits63 : Gen Nat := do
  let left ← nextBits 31
  let right ← nextBits 32
  pure (left * 2 ^ 32 ^^^ right)

/-- `do { bits = nextBits(..); } while (bits >= limit);` (`3rd/generator/testlib.h:779-782`, `801-804`) -/
def reject (draw : Gen Nat) (limit : Nat) : Nat → Gen Nat
  | 0 => throw .fuel
  | fuel + 1 => do
    let bits ← draw
    if limit ≤ bits then reject draw limit fuel else pure bits

/-- `random_t::next(int n)` (`3rd/generator/testlib.h:770-785`). `__testlib_fail` ends the program. The test for a power of two
`(n & -n) == n` is written with the logarithm. -/
def nextInt (fuel : Nat) (n : Int) : Gen Int := do
  if n ≤ 0 then throw .assertFail
  else if 2 ^ Nat.log2 n.toNat = n.toNat then do
    let bits ← nextBits 31
    pure (((n.toNat * bits) / 2 ^ 31 : Nat) : Int)
  else do
    let bits ← reject (nextBits 31) ((2 ^ 31 - 1) / n.toNat * n.toNat) fuel
    pure ((bits % n.toNat : Nat) : Int)

/-- `random_t::next(long long n)` (`3rd/generator/testlib.h:795-807`) -/
def nextLong (fuel : Nat) (n : Int) : Gen Int := do
  if n ≤ 0 then throw .assertFail
  else do
    let bits ← reject nextBits63 ((2 ^ 63 - 1) / n.toNat * n.toNat) fuel
    pure ((bits % n.toNat : Nat) : Int)

/-- `random_t::next(int from, int to)` (`3rd/generator/testlib.h:829-831`); the difference is computed with `long long`. -/
def nextIn (fuel : Nat) (lo hi : Int) : Gen Int := do
  let x ← nextLong fuel (hi - lo + 1)
  pure (x + lo)

/-- `random_t::setSeed(long long)` (`3rd/generator/testlib.h:747-750`), for a seed which is not negative -/
def setSeed (seed : Nat) : Gen Unit := fun s => .ok ((), { s with seed := (seed ^^^ 0x5DEECE66D) % 2 ^ 48 })

/-- `std::iter_swap(first + i, first + j)` -/
def swap {α : Type} (l : List α) (i j : Nat) : Res (List α) := do
  let a ← listRd l i
  let b ← listRd l j
  .ok ((l.set i b).set j a)

/-- `shuffle` (`3rd/generator/testlib.h:4699-4704`) from position `i` on, with `cnt` positions to go -/
def shuffleFrom {α : Type} (fuel : Nat) : Nat → Nat → List α → Gen (List α)
  | 0, _, l => pure l
  | cnt + 1, i, l => do
    let r ← nextInt fuel (i + 1 : Nat)
    let l ← (swap l i r.toNat : Res (List α))
    shuffleFrom fuel cnt (i + 1) l

/-- `shuffle` (`3rd/generator/testlib.h:4699-4704`) -/
def shuffle {α : Type} (fuel : Nat) (l : List α) : Gen (List α) := shuffleFrom fuel (l.length - 1) 1 l

/-- `JudgeSelfLoop(u,v) || JudgeMultiplyEdge(u,v)` (`3rd/generator/gen.h:223-231`) for `self_loop == 0` and `direction == 0`; `e` is the list of
the keys of the map `e` with value `true`. -/
def judge (multi : Bool) (e : List (Int × Int)) (u v : Int) : Bool :=
  decide (u = v) || (!multi && (decide ((u, v) ∈ e) || decide ((v, u) ∈ e)))

/-- `do { u=..; v=..; } while(..)` in `GenGraph` (`3rd/generator/gen.h:344-348`) -/
def drawPair (fuel : Nat) (node : Int) (multi : Bool) (e : List (Int × Int)) : Nat → Gen (Int × Int)
  | 0 => throw .fuel
  | k + 1 => do
    let u ← nextInt fuel node
    let v ← nextInt fuel node
    if judge multi e u v then drawPair fuel node multi e k else pure (u, v)

/-- `AddEdge` (`3rd/generator/gen.h:232-249`) for `direction == 0` -/
def addEdge (fuel : Nat) (multi : Bool) (u v : Int) (edge e : List (Int × Int)) : Gen (List (Int × Int) × List (Int × Int)) := do
  let r ← nextInt fuel 2
  let edge := edge ++ [if r ≠ 0 then (u, v) else (v, u)]
  pure (edge, if multi then e else (v, u) :: (u, v) :: e)

/-- `while(m--) {..}` in `GenGraph` (`3rd/generator/gen.h:343-350`) -/
def edgeLoop (fuel : Nat) (node : Int) (multi : Bool) : Nat → Int → List (Int × Int) → List (Int × Int) → Gen (List (Int × Int))
  | 0, _, _, _ => throw .fuel
  | k + 1, m, edge, e => do
    if m = 0 then pure edge
    else do
      let m' ← int (m - 1)
      let (u, v) ← drawPair fuel node multi e fuel
      let (edge, e) ← addEdge fuel multi u v edge e
      edgeLoop fuel node multi k m' edge e

/-- `GenGraph` (`3rd/generator/gen.h:319-352`) with `direction`, `self_loop` and `connect` 0 as the constructor leaves them
(`3rd/generator/gen.h:260-267`); `TinyGen` does not change them. The result is what `GetEdge` returns. -/
def genGraph (fuel : Nat) (node side : Int) (multi : Bool) : Gen (List (Int × Int)) := do
  let m := if multi then side else min side ((node * (node - 1)).tdiv 2)
  let edge ← edgeLoop fuel node multi fuel m [] []
  shuffle fuel edge

/-- `struct Graph` (`test/Graph.hpp:10-22`) -/
structure Graph (D : Type) where
  n : Int
  m : Int
  node : List (MuLimit D)
  edge : List (OmegaLimit D)
  info : String

section
variable {D : Type} [IntCast D] [Add D] [Mul D] [Div D]

/-- `RandF` (`test/generator.cpp:11-19`); `a`, `b`, `c` here are the numbers before the division by 4.0. -/
def randF (fuel : Nat) (funLimit : Int × Int) (genInfo : Bool) : Gen (Fn D) := do
  let lo ← int (4 * max 0 funLimit.1)
  let hi ← int (4 * max 0 funLimit.2)
  let a ← nextIn fuel lo hi
  let lo ← int (4 * funLimit.1)
  let hi ← int (4 * funLimit.2)
  let b ← nextIn fuel lo hi
  let c ← nextIn fuel lo hi
  if genInfo then modify fun s => { s with funs := s.funs ++ [(a, b, c)] }
  let four : D := ((4 : Int) : D)
  let fn : Fn D := fun x => .ok ((a : D) / four * (x : D) * (x : D) + (b : D) / four * (x : D) + (c : D) / four)
  pure fn

/-- `l`, `u`, `swap` (`test/generator.cpp:53-55` and `62-64`) -/
def randRange (fuel : Nat) (limit : Int × Int) : Gen (Int × Int) := do
  let l ← nextIn fuel limit.1 limit.2
  let u ← nextIn fuel limit.1 limit.2
  pure (if l > u then (u, l) else (l, u))

/-- the loop over the nodes (`test/generator.cpp:52-57`), `cnt` rounds -/
def nodeLoop (fuel : Nat) (nodeLimit funLimit : Int × Int) (genInfo : Bool) : Nat → List (MuLimit D) → Gen (List (MuLimit D))
  | 0, nodes => pure nodes
  | cnt + 1, nodes => do
    let (l, u) ← randRange fuel nodeLimit
    let fn ← randF fuel funLimit genInfo
    nodeLoop fuel nodeLimit funLimit genInfo cnt (nodes ++ [{ l := l, u := u, fn := fn }])

/-- the loop over the edges (`test/generator.cpp:61-66`). `size_t(i + 1)` of a negative number would wrap around; the ends are not negative. -/
def pairLoop (fuel : Nat) (edgeLimit funLimit : Int × Int) (genInfo : Bool) :
    List (Int × Int) → List (OmegaLimit D) → Gen (List (OmegaLimit D))
  | [], edges => pure edges
  | (i, j) :: rest, edges => do
    let (l, u) ← randRange fuel edgeLimit
    let fn ← randF fuel funLimit genInfo
    let i' ← int (i + 1)
    let j' ← int (j + 1)
    pairLoop fuel edgeLimit funLimit genInfo rest (edges ++ [{ l := l, u := u, fn := fn, i := i'.toNat, j := j'.toNat }])

end

/-- `%.2lf` of `z / 4.0`: two decimals are exact. The format has at least one digit before the point, and a sign only if `z < 0`. -/
def fmt (z : Int) : String :=
  (if z < 0 then "-" else "") ++ toString (z.natAbs / 4) ++
    (match z.natAbs % 4 with | 0 => ".00" | 1 => ".25" | 2 => ".50" | _ => ".75")

/-- `PrintFunction` (`test/generator.cpp:21-26`). `front`/`pop` of an empty queue and a text which does not fit into `buf`, with the terminating
zero, are undefined behaviour. -/
def printFunction : Gen String := fun s =>
  match s.funs with
  | [] => .error .emptyQueue
  | (a, b, c) :: rest =>
    let text := "[](int x) { return " ++ fmt a ++ " * x * x + " ++ fmt b ++ " * x + " ++ fmt c ++ "; }"
    if text.length + 1 ≤ 90 then .ok (text, { s with funs := rest }) else .error .oob

/-- `if (!multi_edge) mlimit = ..` (`test/generator.cpp:38-40`) -/
def edgeBound (n mlimit : Int) (multi : Bool) : Gen Int :=
  if multi then pure mlimit
  else do
    let n1 ← int (n - 1)
    let p ← int (n * n1)
    pure (min mlimit (p.tdiv 2))

section
variable {D : Type}

/-- the loop that describes the nodes (`test/generator.cpp:75-83`) -/
def nodeInfo (nodes : List (MuLimit D)) : Nat → Nat → String → Gen String
  | 0, _, s => pure s
  | cnt + 1, i, s => do
    let e ← (listRd nodes i : Res _)
    let f ← printFunction
    nodeInfo nodes cnt (i + 1) (s ++ "\t\t{" ++ toString e.l ++ ", " ++ toString e.u ++ ", " ++ f ++ "}\n")

/-- the loop that describes the edges (`test/generator.cpp:85-98`) -/
def pairInfo (edges : List (OmegaLimit D)) : Nat → Nat → String → Gen String
  | 0, _, s => pure s
  | cnt + 1, i, s => do
    let e ← (listRd edges i : Res _)
    let f ← printFunction
    pairInfo edges cnt (i + 1) (s ++ "\t\t{{" ++ toString e.l ++ ", " ++ toString e.u ++ ", " ++ f ++ "}, " ++
      toString e.i ++ ", " ++ toString e.j ++ "}\n")

variable [IntCast D] [Add D] [Mul D] [Div D]

/-- `TinyGen` (`test/generator.cpp:28-104`). `reserve` is not modelled. Node 0 (`std::vector<Node> nodes(1)`) has an empty `std::function`; its range is not used. -/
def tinyGen (fuel : Nat) (n mlimit : Int) (multi : Bool) (nodeLimit edgeLimit funLimit : Int × Int) (seed : Nat) (genInfo : Bool) :
    Gen (Graph D) := do
  let mlimit ← edgeBound n mlimit multi
  let n1 ← int (n - 1)
  let m ← nextIn fuel n1 mlimit
  setSeed seed
  let ends ← genGraph fuel n m multi
  let nodes ← nodeLoop (D := D) fuel nodeLimit funLimit genInfo n.toNat [{ l := 0, u := 0, fn := fun _ => .error .callback }]
  let edges ← pairLoop (D := D) fuel edgeLimit funLimit genInfo ends []
  if !genInfo then pure { n := n, m := m, node := nodes, edge := edges, info := "" }
  else do
    let s ← nodeInfo nodes n.toNat 1 ("{\n\t" ++ toString n ++ "\n\t{\n\t\t{}\n")
    let s ← pairInfo edges m.toNat 0 (s ++ "\t}\n\t{\n")
    pure { n := n, m := m, node := nodes, edge := edges, info := s ++ "\t}\n}\n" }

/-- `SmallGen1` (`test/test.cpp:272-277`), round `i` -/
def smallGen1 (fuel i : Nat) : Gen (Graph D) := tinyGen fuel 5 10 false (-2, 2) (-2, 6) (-10, 10) i true

/-- `SmallGen2` (`test/test.cpp:279-284`), round `i` -/
def smallGen2 (fuel i : Nat) : Gen (Graph D) := tinyGen fuel 4 10 true (-2, 2) (-2, 6) (-10, 10) i true

/-- `HugeGen1` (`test/test.cpp:286-291`), round `i` -/
def hugeGen1 (fuel i : Nat) : Gen (Graph D) := tinyGen fuel 50 100 false (-20, 20) (-20, 60) (-100, 100) i true

/-- `HugeGen2` (`test/test.cpp:293-298`), round `i` -/
def hugeGen2 (fuel i : Nat) : Gen (Graph D) := tinyGen fuel 50 200 true (-20, 20) (-20, 60) (-100, 100) i true

/-- `HugeGen3` (`test/test.cpp:300-305`), round `i` -/
def hugeGen3 (fuel i : Nat) : Gen (Graph D) := tinyGen fuel 100 300 true (-40, 40) (-40, 40) (-100, 100) i true

end

end Gen
end AHO
