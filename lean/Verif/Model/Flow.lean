import Verif.Model.Define
import Verif.Model.Queue
import Verif.Model.LCT
/-!
# Model of `src/Flow.hpp` and `src/Flow.cpp`
-/

namespace AHO

/-- `class Flow` (`src/Flow.hpp:53-70`). `fa[i] == size_t(-1)` is `none`. -/
structure Flow (D : Type) where
  n : Nat
  M : D
  epsilon : Int
  nodes : Heap D
  imbalances : Vec D
  currentEdge : Vec Nat
  uq : UQ
  fa : Vec (Option Nat)
  edges : Vec (OmegaLimit D)
  flows : Vec D
  G : Vec (List Nat)
  scaling : Vec Int

namespace Flow
variable {D : Type} [Zero D] [Add D] [Sub D] [Neg D]
  [LT D] [LE D] [DecidableLT D] [DecidableLE D] [BEq D]

/-- `int(n + 1)` and the implicit conversion of `2 * (n + 1)`: a value that does not fit is reported as
`overflow` (in C++ it is implementation-defined and useless). -/
def toInt (imax : Int) (k : Nat) : Res Int := ck imax (k : Int)

/-- `while (epsilon < 2 * int(n + 1) * U_) { epsilon *= 2; assert(epsilon != 0); }`
(`src/Flow.cpp:10-13`). -/
def epsilonLoop (imax : Int) (n : Nat) (U : Int) (fuel : Nat) (eps : Int) : Res Int :=
  whileLoop
    (fun eps => do
      let n1 ← toInt imax (n + 1)
      let a ← ck imax (2 * n1)
      let b ← ck imax (a * U)
      .ok (decide (eps < b)))
    (fun eps => do
      let eps ← ck imax (eps * 2)
      if eps ≠ 0 then .ok eps else .error .assertFail)
    fuel eps

/-- The loop `for (size_t i = edges.size(); i; ) { i -= 2; ... }` (`src/Flow.cpp:18-22`) with `i = 2 * k`. -/
def doubleEdges (imax : Int) : Nat → Vec (OmegaLimit D) → Res (Vec (OmegaLimit D))
  | 0, E => .ok E
  | k + 1, E => do
    let i := 2 * k
    let e ← E.rd (i / 2)
    let E ← E.wr i e
    let e ← E.rd i
    let E ← E.wr (i + 1) e
    let e ← E.rd (i + 1)
    let e ← e.reverse imax
    let E ← E.wr (i + 1) e
    doubleEdges imax k E

/-- `Flow::Flow` (`src/Flow.cpp:6-28`). -/
def mk' (imax : Int) (fuel : Nat) (n : Nat) (M : D) (U : Int) (limits : List (OmegaLimit D)) :
    Res (Flow D) := do
  let eps ← epsilonLoop imax n U fuel 1
  let n1 ← toInt imax (n + 1)
  if ¬ n1 = 0 then
    if U ≤ (eps.tdiv 2).tdiv n1 then do
      let E := Vec.ofList limits default
      let E := E.resize (E.size * 2) default
      let E ← doubleEdges imax limits.length E
      let G ← forRange (fun (G : Vec (List Nat)) e_id => do
          let e ← E.rd e_id
          let g ← G.rd e.i
          G.wr e.i (g ++ [e_id]))
        0 E.size (Vec.replicate (n + 1) [])
      .ok {
        n := n
        M := M
        epsilon := eps
        nodes := Vec.replicate (n + 1) LCT.initNode
        imbalances := Vec.replicate (n + 1) 0
        currentEdge := Vec.replicate (n + 1) 0
        uq := UQ.mk' (n + 1)
        fa := Vec.replicate (n + 1) none
        edges := E
        flows := Vec.replicate E.size 0
        G := G
        scaling := Vec.replicate (n + 1) 0 }
    else .error .assertFail
  else .error .divZero

/-- The lambda `ceil_div` (`src/Flow.cpp:130-132`). -/
def ceilDiv (imax : Int) (num denom : Int) : Res Int :=
  if denom = 0 then .error .divZero
  else ck imax (num.tdiv denom + if num.tmod denom > 0 then 1 else 0)

/-- `Flow::q` (`src/Flow.cpp:128-140`). -/
def q (imax : Int) (s : Flow D) (e_id : Nat) : Res D := do
  let e ← s.edges.rd e_id
  let si ← s.scaling.rd e.i
  let sj ← s.scaling.rd e.j
  let num ← ck imax (si - sj)
  let denom ← toInt imax (2 * (s.n + 1))
  let c ← ceilDiv imax num denom
  let t ← ck imax (c - 1)
  let t1 ← ck imax (t + 1)
  let f ← s.flows.rd e_id
  if t1 > e.u then .ok (s.M - f)
  else if t < e.l then .ok 0
  else do
    let b ← e.fn t1
    let a ← e.fn t
    .ok (dmax 0 (b - a - f))

/-- `Flow::add_flow_of_edge` (`src/Flow.cpp:142-145`). -/
def addFlowOfEdge (s : Flow D) (e_id : Nat) (x : D) : Res (Flow D) := do
  let f ← s.flows.rd e_id
  let fl ← s.flows.wr e_id (f + x)
  let f ← fl.rd e_id
  let fl ← fl.wr (e_id ^^^ 1) (-f)
  .ok { s with flows := fl }

/-- `Flow::link` (`src/Flow.cpp:147-154`). -/
def link (imax : Int) (fuel : Nat) (s : Flow D) (p : Nat) : Res (Flow D) := do
  let g ← s.G.rd p
  let k ← s.currentEdge.rd p
  let e_id ← listRd g k
  let e ← s.edges.rd e_id
  let fa ← s.fa.wr p (some e.j)
  let s := { s with fa := fa }
  let v ← q imax s e_id
  let h ← LCT.setVal fuel s.nodes p v
  let h ← LCT.setFa fuel h p e.j
  .ok { s with nodes := h }

/-- `Flow::cut` (`src/Flow.cpp:156-162`). -/
def cut (imax : Int) (fuel : Nat) (s : Flow D) (p : Nat) : Res (Flow D) := do
  let fa ← s.fa.wr p none
  let s := { s with fa := fa }
  let h ← LCT.cut fuel s.nodes p
  let s := { s with nodes := h }
  let g ← s.G.rd p
  let k ← s.currentEdge.rd p
  let e_id ← listRd g k
  let v ← q imax s e_id
  let (w, h) ← LCT.getVal fuel s.nodes p
  let s := { s with nodes := h }
  addFlowOfEdge s e_id (v - w)

/-- `Flow::initialization` (`src/Flow.cpp:48-56`). -/
def initialization (s : Flow D) : Flow D :=
  { s with currentEdge := Vec.replicate s.currentEdge.size 0 }

/-- Body of the first loop of `Flow::push_all_admissible_edge` (`src/Flow.cpp:59-67`). -/
def pushEdge (imax : Int) (s : Flow D) (e_id : Nat) : Res (Flow D) := do
  let e ← s.edges.rd e_id
  let x ← q imax s e_id
  if 0 < x then do
    let bi ← s.imbalances.rd e.i
    let im ← s.imbalances.wr e.i (bi - x)
    let bj ← im.rd e.j
    let im ← im.wr e.j (bj + x)
    addFlowOfEdge { s with imbalances := im } e_id x
  else .ok s

/-- Body of the second loop of `Flow::push_all_admissible_edge` (`src/Flow.cpp:68-70`). -/
def enqueueActive (s : Flow D) (i : Nat) : Res (Flow D) := do
  let b ← s.imbalances.rd i
  if 0 < b then do
    let uq ← s.uq.push i
    .ok { s with uq := uq }
  else .ok s

/-- `Flow::push_all_admissible_edge` (`src/Flow.cpp:58-71`). -/
def pushAllAdmissibleEdge (imax : Int) (s : Flow D) : Res (Flow D) := do
  let s ← forRange (pushEdge imax) 0 s.edges.size s
  forRange enqueueActive 0 (s.n + 1) s

/-- The lambda `push` of `Flow::send` (`src/Flow.cpp:97-103`). -/
def sendPush (fuel : Nat) (s : Flow D) (p root : Nat) (x : D) : Res (Flow D) := do
  let h ← LCT.addValWayToRoot fuel s.nodes p (-x)
  let s := { s with nodes := h }
  let bp ← s.imbalances.rd p
  let im ← s.imbalances.wr p (bp - x)
  let br ← im.rd root
  let im ← im.wr root (br + x)
  let s := { s with imbalances := im }
  enqueueActive s root

/-- The loop of `Flow::send` (`src/Flow.cpp:104-113`). -/
def sendLoop (imax : Int) (fuel0 : Nat) (p : Nat) : Nat → Flow D → Nat → Res (Flow D)
  | 0, _, _ => .error .fuel
  | fuel + 1, s, root =>
    if p ≠ root then do
      let (m, h) ← LCT.getMin fuel0 s.nodes p
      let s := { s with nodes := h }
      let bp ← s.imbalances.rd p
      if bp < m.1 then sendPush fuel0 s p root bp
      else do
        let s ← sendPush fuel0 s p root m.1
        let root ← LCT.deref m.2
        let s ← cut imax fuel0 s root
        sendLoop imax fuel0 p fuel s root
    else .ok s

/-- `Flow::send` (`src/Flow.cpp:94-114`). -/
def send (imax : Int) (fuel : Nat) (s : Flow D) (p : Nat) : Res (Flow D) := do
  let (root, h) ← LCT.findRoot fuel s.nodes p
  sendLoop imax fuel p fuel { s with nodes := h } root

/-- The loop of `Flow::update_scaling` (`src/Flow.cpp:118-122`). -/
def cutChildren (imax : Int) (fuel : Nat) (p : Nat) : List Nat → Flow D → Res (Flow D)
  | [], s => .ok s
  | e_id :: es, s => do
    let e ← s.edges.rd e_id
    let f ← s.fa.rd e.j
    let s ← if f = some p then cut imax fuel s e.j else .ok s
    cutChildren imax fuel p es s

/-- `Flow::update_scaling` (`src/Flow.cpp:116-126`). -/
def updateScaling (imax : Int) (fuel : Nat) (s : Flow D) (p : Nat) : Res (Flow D) := do
  let g ← s.G.rd p
  let s ← cutChildren imax fuel p g s
  let v ← s.scaling.rd p
  let v' ← ck imax (v + s.epsilon.tdiv 2)
  let sc ← s.scaling.wr p v'
  let ce ← s.currentEdge.wr p 0
  .ok { s with scaling := sc, currentEdge := ce }

/-- The loop of `Flow::choice_operator` (`src/Flow.cpp:86-91`). -/
def choiceLoop (imax : Int) (fuel0 : Nat) (p : Nat) : Nat → Flow D → Res (Flow D)
  | 0, _ => .error .fuel
  | fuel + 1, s => do
    let k ← s.currentEdge.rd p
    let g ← s.G.rd p
    if k < g.length then do
      let e_id ← listRd g k
      let x ← q imax s e_id
      if 0 < x then do
        let s ← link imax fuel0 s p
        send imax fuel0 s p
      else do
        let ce ← s.currentEdge.wr p (k + 1)
        choiceLoop imax fuel0 p fuel { s with currentEdge := ce }
    else updateScaling imax fuel0 s p

/-- `Flow::choice_operator` (`src/Flow.cpp:85-92`). -/
def choiceOperator (imax : Int) (fuel : Nat) (s : Flow D) (p : Nat) : Res (Flow D) :=
  choiceLoop imax fuel p fuel s

/-- Body of the loop of `Flow::refine` (`src/Flow.cpp:75-77`). -/
def refineStep (imax : Int) (fuel : Nat) (s : Flow D) : Res (Flow D) := do
  let p ← s.uq.front
  let s ← choiceOperator imax fuel s p
  let p ← s.uq.front
  let b ← s.imbalances.rd p
  if b == 0 then do
    let uq ← s.uq.pop
    .ok { s with uq := uq }
  else .ok s

/-- `if (fa[i] != size_t(-1)) cut(i);` (`src/Flow.cpp:81-82`). -/
def cutIfLinked (imax : Int) (fuel : Nat) (s : Flow D) (i : Nat) : Res (Flow D) := do
  let f ← s.fa.rd i
  if f ≠ none then cut imax fuel s i else .ok s

/-- `Flow::refine` (`src/Flow.cpp:73-83`). -/
def refine (imax : Int) (fuel : Nat) (s : Flow D) : Res (Flow D) := do
  let s ← whileLoop (fun s : Flow D => .ok (!s.uq.empty)) (refineStep imax fuel) fuel s
  forRange (cutIfLinked imax fuel) 0 (s.n + 1) s

/-- One phase: the body of the loop of `Flow::min_cost` and `epsilon /= 2` (`src/Flow.cpp:31-35`). -/
def phase (imax : Int) (fuel : Nat) (s : Flow D) : Res (Flow D) := do
  let s := initialization s
  let s ← pushAllAdmissibleEdge imax s
  let s ← refine imax fuel s
  .ok { s with epsilon := s.epsilon.tdiv 2 }

/-- The loop of `Flow::min_cost` (`src/Flow.cpp:31-35`). -/
def phases (imax : Int) (fuel : Nat) (s : Flow D) : Res (Flow D) :=
  whileLoop (fun s : Flow D => .ok (decide (s.epsilon ≥ 2))) (phase imax fuel) fuel s

variable [Mul D] [Div D] [IntCast D]

/-- Body of the final loop of `Flow::min_cost` (`src/Flow.cpp:37-42`). -/
def addEdgeMin (imax : Int) (fuel : Nat) (as : D × Flow D) (e_id : Nat) : Res (D × Flow D) := do
  let (answer, s) := as
  let e ← s.edges.rd e_id
  let x ← s.flows.rd e_id
  let e' : OmegaLimit D := { e with fn := fun w => do let v ← e.fn w; .ok (v - x * (w : D)) }
  let E ← s.edges.wr e_id e'
  let m ← e'.minimum imax fuel
  .ok (answer + m, { s with edges := E })

/-- `Flow::min_cost` (`src/Flow.cpp:30-46`); also returns the object's state afterwards. -/
def minCost (imax : Int) (fuel : Nat) (s : Flow D) : Res (D × Flow D) := do
  let s ← phases imax fuel s
  let (answer, s) ← forRange (addEdgeMin imax fuel) 0 s.edges.size (0, s)
  .ok (answer / ((2 : Int) : D), s)

end Flow
end AHO
