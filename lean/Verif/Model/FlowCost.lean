import Verif.Model.Flow
import Verif.Model.LCTCost
/-!
# `Flow` with a count of its steps

The functions of `Verif.Model.Flow` which use the link-cut tree, and those which call them, once more, statement by statement, with counters. Every
statement which is not counted takes constant time, apart from the callbacks, whose evaluations are counted. `Verif.Proof.FlowCost` shows that the
functions below, the counters removed, are those of `Verif.Model.Flow`.
-/

namespace AHO

/-- What is counted. -/
structure Cost where
  /-- rounds of the loop of `Flow::refine` -/
  rounds : Nat
  /-- steps of `splay` and `access` in the link-cut tree, see `Verif.Model.LCTCost` -/
  steps : Nat
  /-- iterations of the loops of `find_root` and `get_min_wtrbnr` -/
  walk : Nat
  /-- iterations of the other loops: those of `choice_operator` and `update_scaling`, over nodes, and over edges -/
  iters : Nat
  /-- evaluations of the function `fn` of a limit; each of them calls every callback of which `fn` is made once -/
  evals : Nat

instance : Add Cost := ⟨fun a b => ⟨a.rounds + b.rounds, a.steps + b.steps, a.walk + b.walk, a.iters + b.iters, a.evals + b.evals⟩⟩
instance : Zero Cost := ⟨⟨0, 0, 0, 0, 0⟩⟩

namespace Flow
variable {D : Type} [Zero D] [One D] [Add D] [Sub D] [Neg D] [BEq D] [LT D] [LE D] [DecidableLT D] [DecidableLE D]

/-- `Flow::q` (`src/Flow.cpp:128-140`), with the number of evaluations of `e.fn` -/
def qC (imax : Int) (s : Flow D) (e_id : Nat) : Res (Nat × D) := do
  let e ← s.edges.rd e_id
  let si ← s.scaling.rd e.i
  let sj ← s.scaling.rd e.j
  let num ← ck imax (si - sj)
  let denom ← toInt imax (2 * (s.n + 1))
  let c ← ceilDiv imax num denom
  let t ← ck imax (c - 1)
  let t1 ← ck imax (t + 1)
  let f ← s.flows.rd e_id
  if t1 > e.u then .ok (0, s.M - f)
  else if t < e.l then .ok (0, 0)
  else do
    let b ← e.fn t1
    let a ← e.fn t
    .ok (2, dmax 0 (b - a - f))

/-- Body of the first loop of `Flow::push_all_admissible_edge` (`src/Flow.cpp:59-67`) -/
def pushEdgeC (imax : Int) (s : Flow D) (e_id : Nat) : Res (Cost × Flow D) := do
  let e ← s.edges.rd e_id
  let (v, x) ← qC imax s e_id
  if 0 < x then do
    let bi ← s.imbalances.rd e.i
    let im ← s.imbalances.wr e.i (bi - x)
    let bj ← im.rd e.j
    let im ← im.wr e.j (bj + x)
    let s ← addFlowOfEdge { s with imbalances := im } e_id x
    .ok (⟨0, 0, 0, 1, v⟩, s)
  else .ok (⟨0, 0, 0, 1, v⟩, s)

/-- `Flow::push_all_admissible_edge` (`src/Flow.cpp:58-71`) -/
def pushAllAdmissibleEdgeC (imax : Int) (s : Flow D) : Res (Cost × Flow D) := do
  let cs ← forRange (fun (cs : Cost × Flow D) i => do let (c, s) ← pushEdgeC imax cs.2 i; .ok (cs.1 + c, s)) 0 s.edges.size (0, s)
  let s ← forRange enqueueActive 0 (cs.2.n + 1) cs.2
  .ok (cs.1 + ⟨0, 0, 0, cs.2.n + 1, 0⟩, s)

/-- `Flow::link` (`src/Flow.cpp:147-154`) -/
def linkC (imax : Int) (fuel : Nat) (s : Flow D) (p : Nat) : Res (Cost × Flow D) := do
  let g ← s.G.rd p
  let k ← s.currentEdge.rd p
  let e_id ← listRd g k
  let e ← s.edges.rd e_id
  let fa ← s.fa.wr p (some e.j)
  let s := { s with fa := fa }
  let (v0, v) ← qC imax s e_id
  let (k1, h) ← LCT.setValC fuel s.nodes p v
  let (k2, h) ← LCT.setFaC fuel h p e.j
  .ok (⟨0, k1 + k2, 0, 0, v0⟩, { s with nodes := h })

/-- `Flow::cut` (`src/Flow.cpp:156-162`) -/
def cutC (imax : Int) (fuel : Nat) (s : Flow D) (p : Nat) : Res (Cost × Flow D) := do
  let fa ← s.fa.wr p none
  let s := { s with fa := fa }
  let (k1, h) ← LCT.cutC fuel s.nodes p
  let s := { s with nodes := h }
  let g ← s.G.rd p
  let k ← s.currentEdge.rd p
  let e_id ← listRd g k
  let (v0, v) ← qC imax s e_id
  let (k2, w, h) ← LCT.getValC fuel s.nodes p
  let s := { s with nodes := h }
  let s ← addFlowOfEdge s e_id (v - w)
  .ok (⟨0, k1 + k2, 0, 0, v0⟩, s)

/-- The lambda `push` of `Flow::send` (`src/Flow.cpp:97-103`) -/
def sendPushC (fuel : Nat) (s : Flow D) (p root : Nat) (x : D) : Res (Cost × Flow D) := do
  let (k, h) ← LCT.addValWayToRootC fuel s.nodes p (-x)
  let s := { s with nodes := h }
  let bp ← s.imbalances.rd p
  let im ← s.imbalances.wr p (bp - x)
  let br ← im.rd root
  let im ← im.wr root (br + x)
  let s := { s with imbalances := im }
  let s ← enqueueActive s root
  .ok (⟨0, k, 0, 0, 0⟩, s)

/-- The loop of `Flow::send` (`src/Flow.cpp:104-113`). Its iterations are not counted: each makes steps in the link-cut tree. -/
def sendLoopC (imax : Int) (fuel0 : Nat) (p : Nat) : Nat → Flow D → Nat → Res (Cost × Flow D)
  | 0, _, _ => .error .fuel
  | fuel + 1, s, root =>
    if p ≠ root then do
      let (k, w, m, h) ← LCT.getMinC fuel0 s.nodes p
      let s := { s with nodes := h }
      let bp ← s.imbalances.rd p
      if bp < m.1 then do
        let (c, s) ← sendPushC fuel0 s p root bp
        .ok (⟨0, k, w, 0, 0⟩ + c, s)
      else do
        let (c1, s) ← sendPushC fuel0 s p root m.1
        let root ← LCT.deref m.2
        let (c2, s) ← cutC imax fuel0 s root
        let (c3, s) ← sendLoopC imax fuel0 p fuel s root
        .ok (⟨0, k, w, 0, 0⟩ + c1 + c2 + c3, s)
    else .ok (0, s)

/-- `Flow::send` (`src/Flow.cpp:94-114`) -/
def sendC (imax : Int) (fuel : Nat) (s : Flow D) (p : Nat) : Res (Cost × Flow D) := do
  let (k, w, root, h) ← LCT.findRootC fuel s.nodes p
  let (c, s) ← sendLoopC imax fuel p fuel { s with nodes := h } root
  .ok (⟨0, k, w, 0, 0⟩ + c, s)

/-- The loop of `Flow::update_scaling` (`src/Flow.cpp:118-122`) -/
def cutChildrenC (imax : Int) (fuel : Nat) (p : Nat) : List Nat → Flow D → Res (Cost × Flow D)
  | [], s => .ok (0, s)
  | e_id :: es, s => do
    let e ← s.edges.rd e_id
    let f ← s.fa.rd e.j
    let (c1, s) ← if f = some p then cutC imax fuel s e.j else .ok (0, s)
    let (c2, s) ← cutChildrenC imax fuel p es s
    .ok (⟨0, 0, 0, 1, 0⟩ + c1 + c2, s)

/-- `Flow::update_scaling` (`src/Flow.cpp:116-126`) -/
def updateScalingC (imax : Int) (fuel : Nat) (s : Flow D) (p : Nat) : Res (Cost × Flow D) := do
  let g ← s.G.rd p
  let (c, s) ← cutChildrenC imax fuel p g s
  let v ← s.scaling.rd p
  let v' ← ck imax (v + s.epsilon.tdiv 2)
  let sc ← s.scaling.wr p v'
  let ce ← s.currentEdge.wr p 0
  .ok (c, { s with scaling := sc, currentEdge := ce })

/-- The loop of `Flow::choice_operator` (`src/Flow.cpp:86-91`) -/
def choiceLoopC (imax : Int) (fuel0 : Nat) (p : Nat) : Nat → Flow D → Res (Cost × Flow D)
  | 0, _ => .error .fuel
  | fuel + 1, s => do
    let k ← s.currentEdge.rd p
    let g ← s.G.rd p
    if k < g.length then do
      let e_id ← listRd g k
      let (v, x) ← qC imax s e_id
      if 0 < x then do
        let (c1, s) ← linkC imax fuel0 s p
        let (c2, s) ← sendC imax fuel0 s p
        .ok (⟨0, 0, 0, 1, v⟩ + c1 + c2, s)
      else do
        let ce ← s.currentEdge.wr p (k + 1)
        let (c, s) ← choiceLoopC imax fuel0 p fuel { s with currentEdge := ce }
        .ok (⟨0, 0, 0, 1, v⟩ + c, s)
    else updateScalingC imax fuel0 s p

/-- Body of the loop of `Flow::refine` (`src/Flow.cpp:75-77`) -/
def refineStepC (imax : Int) (fuel : Nat) (s : Flow D) : Res (Cost × Flow D) := do
  let p ← s.uq.front
  let (c, s) ← choiceLoopC imax fuel p fuel s
  let p ← s.uq.front
  let b ← s.imbalances.rd p
  if b == 0 then do
    let uq ← s.uq.pop
    .ok (⟨1, 0, 0, 0, 0⟩ + c, { s with uq := uq })
  else .ok (⟨1, 0, 0, 0, 0⟩ + c, s)

/-- `if (fa[i] != size_t(-1)) cut(i);` (`src/Flow.cpp:81-82`) -/
def cutIfLinkedC (imax : Int) (fuel : Nat) (s : Flow D) (i : Nat) : Res (Cost × Flow D) := do
  let f ← s.fa.rd i
  let (c, s) ← if f ≠ none then cutC imax fuel s i else .ok (0, s)
  .ok (⟨0, 0, 0, 1, 0⟩ + c, s)

/-- `Flow::refine` (`src/Flow.cpp:73-83`) -/
def refineC (imax : Int) (fuel : Nat) (s : Flow D) : Res (Cost × Flow D) := do
  let cs ← whileLoop (fun cs : Cost × Flow D => .ok (!cs.2.uq.empty))
    (fun cs => do let (c, s) ← refineStepC imax fuel cs.2; .ok (cs.1 + c, s)) fuel (0, s)
  forRange (fun (cs : Cost × Flow D) i => do let (c, s) ← cutIfLinkedC imax fuel cs.2 i; .ok (cs.1 + c, s)) 0 (cs.2.n + 1) cs

/-- One phase (`src/Flow.cpp:31-35`). The loop of `initialization` makes `n + 1` iterations. -/
def phaseC (imax : Int) (fuel : Nat) (s : Flow D) : Res (Cost × Flow D) := do
  let s := initialization s
  let k := s.n + 1
  let (c1, s) ← pushAllAdmissibleEdgeC imax s
  let (c2, s) ← refineC imax fuel s
  .ok (⟨0, 0, 0, k, 0⟩ + c1 + c2, { s with epsilon := s.epsilon.tdiv 2 })

/-- The loop of `Flow::min_cost` (`src/Flow.cpp:31-35`) -/
def phasesC (imax : Int) (fuel : Nat) (s : Flow D) : Res (Cost × Flow D) :=
  whileLoop (fun cs : Cost × Flow D => .ok (decide (cs.2.epsilon ≥ 2)))
    (fun cs => do let (c, s) ← phaseC imax fuel cs.2; .ok (cs.1 + c, s)) fuel (0, s)

end Flow
end AHO
