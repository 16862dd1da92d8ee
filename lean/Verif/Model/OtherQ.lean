import Verif.Model.Solver
/-!
# The program with another function in place of `Flow::q`

The definitions are those of `Verif/Model/Flow.lean` with a parameter `Q` in place of `q`; `minCostWith_q` says that nothing else is different. `qPaper` is `q` with the
rounding of the paper, which the comment in `src/Flow.cpp:133-134` mentions.
-/

namespace AHO
namespace Flow
set_option linter.unusedSectionVars false
set_option linter.unusedVariables false
variable {D : Type} [Zero D] [Add D] [Sub D] [Neg D] [LT D] [LE D] [DecidableLT D] [DecidableLE D] [BEq D]

/-- `Flow::q` (`src/Flow.cpp:128-140`) with `⌊…⌋` in place of `⌈…⌉ - 1`: the comment there says that the paper has the former. The function for `⌊…⌋` is not in
the program; here it is the division of Lean, which rounds down for a positive divisor. -/
def qPaper (imax : Int) (s : Flow D) (e_id : Nat) : Res D := do
  let e ← s.edges.rd e_id
  let si ← s.scaling.rd e.i
  let sj ← s.scaling.rd e.j
  let num ← ck imax (si - sj)
  let denom ← toInt imax (2 * (s.n + 1))
  if denom = 0 then .error .divZero
  else do
    let t ← ck imax (num / denom)
    let t1 ← ck imax (t + 1)
    let f ← s.flows.rd e_id
    if t1 > e.u then .ok (s.M - f)
    else if t < e.l then .ok 0
    else do
      let b ← e.fn t1
      let a ← e.fn t
      .ok (dmax 0 (b - a - f))

/-- `Flow::link` (`src/Flow.cpp:147-154`). -/
def linkWith (Q : Flow D → Nat → Res D) (imax : Int) (fuel : Nat) (s : Flow D) (p : Nat) : Res (Flow D) := do
  let g ← s.G.rd p
  let k ← s.currentEdge.rd p
  let e_id ← listRd g k
  let e ← s.edges.rd e_id
  let fa ← s.fa.wr p (some e.j)
  let s := { s with fa := fa }
  let v ← Q s e_id
  let h ← LCT.setVal fuel s.nodes p v
  let h ← LCT.setFa fuel h p e.j
  .ok { s with nodes := h }

/-- `Flow::cut` (`src/Flow.cpp:156-162`). -/
def cutWith (Q : Flow D → Nat → Res D) (imax : Int) (fuel : Nat) (s : Flow D) (p : Nat) : Res (Flow D) := do
  let fa ← s.fa.wr p none
  let s := { s with fa := fa }
  let h ← LCT.cut fuel s.nodes p
  let s := { s with nodes := h }
  let g ← s.G.rd p
  let k ← s.currentEdge.rd p
  let e_id ← listRd g k
  let v ← Q s e_id
  let (w, h) ← LCT.getVal fuel s.nodes p
  let s := { s with nodes := h }
  addFlowOfEdge s e_id (v - w)

/-- Body of the first loop of `Flow::push_all_admissible_edge` (`src/Flow.cpp:59-67`). -/
def pushEdgeWith (Q : Flow D → Nat → Res D) (imax : Int) (s : Flow D) (e_id : Nat) : Res (Flow D) := do
  let e ← s.edges.rd e_id
  let x ← Q s e_id
  if 0 < x then do
    let bi ← s.imbalances.rd e.i
    let im ← s.imbalances.wr e.i (bi - x)
    let bj ← im.rd e.j
    let im ← im.wr e.j (bj + x)
    addFlowOfEdge { s with imbalances := im } e_id x
  else .ok s

/-- `Flow::push_all_admissible_edge` (`src/Flow.cpp:58-71`). -/
def pushAllAdmissibleEdgeWith (Q : Flow D → Nat → Res D) (imax : Int) (s : Flow D) : Res (Flow D) := do
  let s ← forRange (pushEdgeWith Q imax) 0 s.edges.size s
  forRange enqueueActive 0 (s.n + 1) s

/-- The loop of `Flow::send` (`src/Flow.cpp:104-113`). -/
def sendLoopWith (Q : Flow D → Nat → Res D) (imax : Int) (fuel0 : Nat) (p : Nat) : Nat → Flow D → Nat → Res (Flow D)
  | 0, _, _ => .error .fuel
  | fuel + 1, s, root =>
    if p ≠ root then do
      let (m, h) ← LCT.getMin fuel0 s.nodes p
      let s := { s with nodes := h }
      let bp ← s.imbalances.rd p
      if bp < m.1 then sendPush fuel0 s p root bp
      else do
        let s ← sendPush fuel0 s p root m.1
        let root ← LCT.deref m.2
        let s ← cutWith Q imax fuel0 s root
        sendLoopWith Q imax fuel0 p fuel s root
    else .ok s

/-- `Flow::send` (`src/Flow.cpp:94-114`). -/
def sendWith (Q : Flow D → Nat → Res D) (imax : Int) (fuel : Nat) (s : Flow D) (p : Nat) : Res (Flow D) := do
  let (root, h) ← LCT.findRoot fuel s.nodes p
  sendLoopWith Q imax fuel p fuel { s with nodes := h } root

/-- The loop of `Flow::update_scaling` (`src/Flow.cpp:118-122`). -/
def cutChildrenWith (Q : Flow D → Nat → Res D) (imax : Int) (fuel : Nat) (p : Nat) : List Nat → Flow D → Res (Flow D)
  | [], s => .ok s
  | e_id :: es, s => do
    let e ← s.edges.rd e_id
    let f ← s.fa.rd e.j
    let s ← if f = some p then cutWith Q imax fuel s e.j else .ok s
    cutChildrenWith Q imax fuel p es s

/-- `Flow::update_scaling` (`src/Flow.cpp:116-126`). -/
def updateScalingWith (Q : Flow D → Nat → Res D) (imax : Int) (fuel : Nat) (s : Flow D) (p : Nat) : Res (Flow D) := do
  let g ← s.G.rd p
  let s ← cutChildrenWith Q imax fuel p g s
  let v ← s.scaling.rd p
  let v' ← ck imax (v + s.epsilon.tdiv 2)
  let sc ← s.scaling.wr p v'
  let ce ← s.currentEdge.wr p 0
  .ok { s with scaling := sc, currentEdge := ce }

/-- The loop of `Flow::choice_operator` (`src/Flow.cpp:86-91`). -/
def choiceLoopWith (Q : Flow D → Nat → Res D) (imax : Int) (fuel0 : Nat) (p : Nat) : Nat → Flow D → Res (Flow D)
  | 0, _ => .error .fuel
  | fuel + 1, s => do
    let k ← s.currentEdge.rd p
    let g ← s.G.rd p
    if k < g.length then do
      let e_id ← listRd g k
      let x ← Q s e_id
      if 0 < x then do
        let s ← linkWith Q imax fuel0 s p
        sendWith Q imax fuel0 s p
      else do
        let ce ← s.currentEdge.wr p (k + 1)
        choiceLoopWith Q imax fuel0 p fuel { s with currentEdge := ce }
    else updateScalingWith Q imax fuel0 s p

/-- `Flow::choice_operator` (`src/Flow.cpp:85-92`). -/
def choiceOperatorWith (Q : Flow D → Nat → Res D) (imax : Int) (fuel : Nat) (s : Flow D) (p : Nat) : Res (Flow D) :=
  choiceLoopWith Q imax fuel p fuel s

/-- Body of the loop of `Flow::refine` (`src/Flow.cpp:75-77`). -/
def refineStepWith (Q : Flow D → Nat → Res D) (imax : Int) (fuel : Nat) (s : Flow D) : Res (Flow D) := do
  let p ← s.uq.front
  let s ← choiceOperatorWith Q imax fuel s p
  let p ← s.uq.front
  let b ← s.imbalances.rd p
  if b == 0 then do
    let uq ← s.uq.pop
    .ok { s with uq := uq }
  else .ok s

/-- `if (fa[i] != size_t(-1)) cut(i);` (`src/Flow.cpp:81-82`). -/
def cutIfLinkedWith (Q : Flow D → Nat → Res D) (imax : Int) (fuel : Nat) (s : Flow D) (i : Nat) : Res (Flow D) := do
  let f ← s.fa.rd i
  if f ≠ none then cutWith Q imax fuel s i else .ok s

/-- `Flow::refine` (`src/Flow.cpp:73-83`). -/
def refineWith (Q : Flow D → Nat → Res D) (imax : Int) (fuel : Nat) (s : Flow D) : Res (Flow D) := do
  let s ← whileLoop (fun s : Flow D => .ok (!s.uq.empty)) (refineStepWith Q imax fuel) fuel s
  forRange (cutIfLinkedWith Q imax fuel) 0 (s.n + 1) s

/-- One phase: the body of the loop of `Flow::min_cost` and `epsilon /= 2` (`src/Flow.cpp:31-35`). -/
def phaseWith (Q : Flow D → Nat → Res D) (imax : Int) (fuel : Nat) (s : Flow D) : Res (Flow D) := do
  let s := initialization s
  let s ← pushAllAdmissibleEdgeWith Q imax s
  let s ← refineWith Q imax fuel s
  .ok { s with epsilon := s.epsilon.tdiv 2 }

/-- The loop of `Flow::min_cost` (`src/Flow.cpp:31-35`). -/
def phasesWith (Q : Flow D → Nat → Res D) (imax : Int) (fuel : Nat) (s : Flow D) : Res (Flow D) :=
  whileLoop (fun s : Flow D => .ok (decide (s.epsilon ≥ 2))) (phaseWith Q imax fuel) fuel s

section
variable [Mul D] [Div D] [IntCast D]

/-- `Flow::min_cost` (`src/Flow.cpp:30-46`); also returns the object's state afterwards. -/
def minCostWith (Q : Flow D → Nat → Res D) (imax : Int) (fuel : Nat) (s : Flow D) : Res (D × Flow D) := do
  let s ← phasesWith Q imax fuel s
  let (answer, s) ← forRange (addEdgeMin imax fuel) 0 s.edges.size (0, s)
  .ok (answer / ((2 : Int) : D), s)

end

theorem linkWith_q {imax : Int} : linkWith (D := D) (q imax) imax = link imax := rfl

theorem cutWith_q {imax : Int} : cutWith (D := D) (q imax) imax = cut imax := rfl

theorem pushAllWith_q {imax : Int} : pushAllAdmissibleEdgeWith (D := D) (q imax) imax = pushAllAdmissibleEdge imax := rfl

theorem sendLoopWith_q {imax : Int} {fuel0 p : Nat} : ∀ fuel (s : Flow D) r, sendLoopWith (q imax) imax fuel0 p fuel s r = sendLoop imax fuel0 p fuel s r := by
  intro fuel
  induction fuel with
  | zero => intro s r; rfl
  | succ fuel ih =>
    intro s r
    unfold sendLoopWith sendLoop
    simp only [ih, cutWith_q]

theorem sendWith_q {imax : Int} {fuel : Nat} {s : Flow D} {p : Nat} : sendWith (q imax) imax fuel s p = send imax fuel s p := by
  unfold sendWith send
  simp only [sendLoopWith_q]

theorem cutChildrenWith_q {imax : Int} {fuel p : Nat} : ∀ es (s : Flow D), cutChildrenWith (q imax) imax fuel p es s = cutChildren imax fuel p es s := by
  intro es
  induction es with
  | nil => intro s; rfl
  | cons e es ih =>
    intro s
    unfold cutChildrenWith cutChildren
    simp only [ih, cutWith_q]

theorem updateScalingWith_q {imax : Int} {fuel : Nat} {s : Flow D} {p : Nat} : updateScalingWith (q imax) imax fuel s p = updateScaling imax fuel s p := by
  unfold updateScalingWith updateScaling
  simp only [cutChildrenWith_q]

theorem choiceLoopWith_q {imax : Int} {fuel0 p : Nat} : ∀ fuel (s : Flow D), choiceLoopWith (q imax) imax fuel0 p fuel s = choiceLoop imax fuel0 p fuel s := by
  intro fuel
  induction fuel with
  | zero => intro s; rfl
  | succ fuel ih =>
    intro s
    unfold choiceLoopWith choiceLoop
    simp only [ih, linkWith_q, sendWith_q, updateScalingWith_q]

theorem refineStepWith_q {imax : Int} {fuel : Nat} : refineStepWith (D := D) (q imax) imax fuel = refineStep imax fuel := by
  funext s
  unfold refineStepWith refineStep choiceOperatorWith choiceOperator
  simp only [choiceLoopWith_q]

theorem phaseWith_q {imax : Int} {fuel : Nat} : phaseWith (D := D) (q imax) imax fuel = phase imax fuel := by
  funext s
  unfold phaseWith phase refineWith refine
  simp only [pushAllWith_q, refineStepWith_q]
  rfl

/-- With `q` in place of `Q` this is `Flow::min_cost`. -/
theorem minCostWith_q [Mul D] [Div D] [IntCast D] {imax : Int} {fuel : Nat} : minCostWith (D := D) (q imax) imax fuel = minCost imax fuel := by
  funext s
  unfold minCostWith minCost phasesWith phases
  simp only [phaseWith_q]

end Flow

/-- `ProblemSolver(n, Mus, Omegas).solve()` (`src/ProblemSolver.cpp:42-59`) with the rounding of the paper in `Flow::q`. -/
def ProblemSolver.runPaper {D : Type} [Zero D] [One D] [Add D] [Sub D] [Neg D] [Mul D] [Div D] [IntCast D] [LT D] [LE D] [DecidableLT D] [DecidableLE D] [BEq D]
    (imax : Int) (fuel : Nat) (n : Nat) (Mus : List (MuLimit D)) (Omegas : List (OmegaLimit D)) : Res (Option D) := do
  let s ← mk' imax fuel n Mus Omegas
  if s.n = sizeMax then .ok none
  else do
    let r ← mergeLimits imax s
    match r with
    | none => .ok none
    | some limits => do
      let (vcm, M, U) ← calc' imax fuel limits
      let flow ← Flow.mk' imax fuel s.n M U limits
      let (minCost, _) ← Flow.minCostWith (Flow.qPaper imax) imax fuel flow
      if vcm < minCost then .ok none else .ok (some minCost)

end AHO
