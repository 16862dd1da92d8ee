import Verif.Model.Base
/-!
# Model of `test/CostScaling.hpp` and `test/CostScaling.cpp`

The minimum-cost circulation used by the second test oracle. `D` stands for `double`. Pointers into the list of edges are
`Option Nat`, `none` for `-1`. The members `flow`, `side`, `Arc::total`, `Arc::id` and `InputEdge::lower`, `upper`, `id` are never
read and are left out. Node numbers are not negative here (the caller converts them from `size_t`); a node number beyond the
vectors is undefined behaviour.
-/

namespace AHO

/-- `std::min` on `double`: the first argument unless the second is smaller. -/
def dmin {D : Type} [LT D] [DecidableLT D] (a b : D) : D := if b < a then b else a

/-- `v.push_back(x)` -/
def Vec.push {α : Type} (v : Vec α) (x : α) : Vec α := ⟨v.size + 1, fun k => if k = v.size then x else v.get k⟩

/-- `struct InputEdge` (`test/CostScaling.hpp:3-7`) -/
structure InputEdge (D : Type) where
  u : Nat
  v : Nat
  cost : Int
  capacity : D

/-- `struct CostScaling::Arc` (`test/CostScaling.hpp:10-14`). `next` is the member called `u` there, which holds the previous
edge of the same node. -/
structure CArc (D : Type) where
  next : Option Nat
  v : Nat
  cost : Int
  capacity : D

/-- The members of `class CostScaling` (`test/CostScaling.hpp:15-20`). -/
structure CostScaling (D : Type) where
  N : Nat
  epsilon : D
  p : Vec D
  head : Vec (Option Nat)
  edge : Vec (CArc D)
  len : Int
  total_cost : D

/-- The members and the local variables during `Refine` (`test/CostScaling.cpp:11-14`, `25-26`). The top of the stack is the
head of the list. -/
structure Refining (D : Type) extends CostScaling D where
  excess : Vec D
  incp : Vec D
  current_edge : Vec (Option Nat)
  vis : Vec Bool
  st : List Nat

namespace CostScaling
variable {D : Type}

/-- `CostPi` (`test/CostScaling.cpp:7-9`) -/
def costPi [Add D] [Sub D] [IntCast D] (s : CostScaling D) (u : Nat) (e : CArc D) : Res D := do
  let a ← s.p.rd u
  let b ← s.p.rd e.v
  .ok ((e.cost : D) - a + b)

/-- `edge[i].capacity = c` -/
def setCapacity (edge : Vec (CArc D)) (i : Nat) (c : D) : Res (Vec (CArc D)) := do
  let e ← edge.rd i
  edge.wr i { e with capacity := c }

section refine
variable [Zero D] [Add D] [Sub D] [Mul D] [Div D] [IntCast D] [LT D] [DecidableLT D] [BEq D]

/-- The body of the loop which saturates the edges (`test/CostScaling.cpp:17-22`); `i` is the edge. -/
def saturate (u i : Nat) (s : Refining D) : Res (Refining D) := do
  let e ← s.edge.rd i
  let w ← s.costPi u e
  if w < 0 then do
    let a ← s.excess.rd u
    let excess ← s.excess.wr u (a - e.capacity)
    let b ← excess.rd e.v
    let excess ← excess.wr e.v (b + e.capacity)
    let r ← s.edge.rd (i ^^^ 1)
    let edge ← setCapacity s.edge (i ^^^ 1) (r.capacity + e.capacity)
    let edge ← setCapacity edge i 0
    .ok { s with edge := edge, excess := excess }
  else .ok s

/-- `for (int i = head[u]; i != -1; i = edge[i].u)` around `saturate` (`test/CostScaling.cpp:16-23`) -/
def saturateNode (fuel : Nat) (s : Refining D) (u : Nat) : Res (Refining D) := do
  let h ← s.head.rd u
  let r ← whileLoop (fun (x : Refining D × Option Nat) => .ok x.2.isSome)
    (fun x => match x.2 with
      | none => .ok x
      | some i => do
        let s ← saturate u i x.1
        let e ← s.edge.rd i
        .ok (s, e.next))
    fuel (s, h)
  .ok r.1

/-- `if (excess[u] > 0) { st.push(u); vis[u] = 1; }` (`test/CostScaling.cpp:28-31`) -/
def pushActive (s : Refining D) (u : Nat) : Res (Refining D) := do
  let x ← s.excess.rd u
  if 0 < x then do
    let vis ← s.vis.wr u true
    .ok { s with st := u :: s.st, vis := vis }
  else .ok s

/-- The lambda `Push` (`test/CostScaling.cpp:34-46`) -/
def push (u x : Nat) (flow : D) (s : Refining D) : Res (Refining D) := do
  let e ← s.edge.rd x
  let edge ← setCapacity s.edge x (e.capacity - flow)
  let r ← edge.rd (x ^^^ 1)
  let edge ← setCapacity edge (x ^^^ 1) (r.capacity + flow)
  let a ← s.excess.rd u
  let excess ← s.excess.wr u (a - flow)
  let b ← excess.rd e.v
  let excess ← excess.wr e.v (b + flow)
  let s := { s with edge := edge, excess := excess }
  let c ← excess.rd e.v
  let d ← s.vis.rd e.v
  if 0 < c ∧ d = false then do
    let vis ← s.vis.wr e.v true
    .ok { s with st := e.v :: s.st, vis := vis }
  else .ok s

/-- The lambda `Relabel` (`test/CostScaling.cpp:48-51`) -/
def relabel (u : Nat) (s : Refining D) : Res (Refining D) := do
  let a ← s.p.rd u
  let p ← s.p.wr u (a + s.epsilon / ((2 : Int) : D))
  let b ← s.incp.rd u
  let incp ← s.incp.wr u (b + s.epsilon / ((2 : Int) : D))
  .ok { s with p := p, incp := incp }

/-- The loop of the lambda `Modify` (`test/CostScaling.cpp:55-63`); `i` is a reference to `current_edge[u]`. The result says whether
the function returned inside the loop. -/
def discharge (u : Nat) : Nat → Refining D → Res (Refining D × Bool)
  | 0, _ => .error .fuel
  | fuel + 1, s => do
    let c ← s.current_edge.rd u
    match c with
    | none => .ok (s, false)
    | some i => do
      let e ← s.edge.rd i
      let w ← s.costPi u e
      let s ← if w < 0 then do
          let x ← s.excess.rd u
          push u i (dmin e.capacity x) s
        else .ok s
      let x ← s.excess.rd u
      if x == 0 then .ok (s, true)
      else do
        let e ← s.edge.rd i
        let cur ← s.current_edge.wr u e.next
        discharge u fuel { s with current_edge := cur }

/-- The lambda `Modify` (`test/CostScaling.cpp:53-69`) -/
def modify (fuel : Nat) (u : Nat) (s : Refining D) : Res (Refining D) := do
  let x ← s.excess.rd u
  if 0 < x then do
    let (s, ret) ← discharge u fuel s
    if ret then .ok s
    else do
      let x ← s.excess.rd u
      if 0 < x then do
        let s ← relabel u s
        let h ← s.head.rd u
        let cur ← s.current_edge.wr u h
        let vis ← s.vis.wr u true
        .ok { s with current_edge := cur, st := u :: s.st, vis := vis }
      else .error .assertFail
  else .error .assertFail

/-- `while (!st.empty())` (`test/CostScaling.cpp:70-78`); the result says whether the function returned `true`. -/
def refineLoop (fuel : Nat) : Nat → Refining D → Res (Refining D × Bool)
  | 0, _ => .error .fuel
  | k + 1, s =>
    match s.st with
    | [] => .ok (s, true)
    | u :: st => do
      let vis ← s.vis.wr u false
      let s := { s with st := st, vis := vis }
      let a ← s.incp.rd u
      if s.epsilon * ((3 : Int) : D) * ((s.N : Int) : D) < a then .ok (s, false)
      else do
        let s ← modify fuel u s
        refineLoop fuel k s

/-- `Refine` (`test/CostScaling.cpp:11-80`) -/
def refine (fuel : Nat) (s : CostScaling D) : Res (CostScaling D × Bool) := do
  let r : Refining D := { s with
    excess := Vec.replicate s.N 0
    incp := Vec.replicate s.N 0
    current_edge := s.head
    vis := Vec.replicate s.N false
    st := [] }
  let r ← forRange (saturateNode fuel) 0 s.N r
  let r ← forRange pushActive 0 s.N r
  let (r, b) ← refineLoop fuel fuel r
  .ok (r.toCostScaling, b)

end refine

/-- `AddEdge` (`test/CostScaling.cpp:82-86`) -/
def addEdge (imax : Int) (u v : Nat) (c : Int) (capacity : D) (s : CostScaling D) : Res (CostScaling D) := do
  let h ← s.head.rd u
  let len ← ck imax (s.len + 1)
  let head ← s.head.wr u (some len.toNat)
  .ok { s with edge := s.edge.push ⟨h, v, c, capacity⟩, len := len, head := head }

section
variable [Zero D] [One D] [Add D] [Sub D] [Neg D] [Mul D] [Div D] [IntCast D] [LT D] [LE D] [DecidableLT D] [DecidableLE D] [BEq D]

/-- The body of the loop of `Init` (`test/CostScaling.cpp:97-102`) -/
def initEdge (imax : Int) (s : CostScaling D) (e : InputEdge D) : Res (CostScaling D) := do
  let s := { s with epsilon := dmax s.epsilon (e.cost : D), total_cost := s.total_cost + e.capacity * (e.cost : D) }
  let s ← addEdge imax e.u e.v e.cost e.capacity s
  let c ← ck imax (-e.cost)
  addEdge imax e.v e.u c 0 s

/-- `Init` (`test/CostScaling.cpp:88-104`), with the assignment to `N` before it (`test/CostScaling.cpp:107`). The junk in the
empty vector of edges is never read. -/
def init (imax : Int) (n : Nat) (arc : List (InputEdge D)) : Res (CostScaling D) := do
  let s ← arc.foldlM (initEdge imax)
    ({ N := n, epsilon := 1, p := Vec.replicate 0 0, head := Vec.replicate n none, edge := Vec.replicate 0 ⟨none, 0, 0, 0⟩,
       len := -1, total_cost := 0 } : CostScaling D)
  .ok { s with p := s.p.resize n 0 }

/-- The loop of `MinCost` (`test/CostScaling.cpp:110-115`); the result says whether all calls of `Refine` succeeded. -/
def scale (fuel : Nat) : Nat → CostScaling D → Res (CostScaling D × Bool)
  | 0, _ => .error .fuel
  | k + 1, s =>
    if 1 ≤ s.epsilon * ((s.N : Int) : D) then do
      let (s, b) ← refine fuel s
      if b then scale fuel k { s with epsilon := s.epsilon / ((2 : Int) : D) }
      else .ok (s, false)
    else .ok (s, true)

/-- `MinCost` (`test/CostScaling.cpp:106-120`) -/
def minCost (imax : Int) (fuel : Nat) (n : Nat) (arc : List (InputEdge D)) : Res (Bool × D) := do
  let s ← init imax n arc
  let (s, b) ← scale fuel fuel s
  if b then
    let t := s.edge.toList.foldl (fun t e => t - e.capacity * (e.cost : D)) s.total_cost
    .ok (true, -t / ((2 : Int) : D))
  else .ok (false, 0)

end
end CostScaling
end AHO
