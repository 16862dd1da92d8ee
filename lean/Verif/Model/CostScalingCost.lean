import Verif.Model.CostScaling
/-!
# `CostScaling` with a count of its steps

The functions of `Verif.Model.CostScaling` once more, statement by statement, with counters. Every statement which is not counted takes constant
time, apart from the two loops over all nodes and the allocation of four vectors in every call of `Refine` (`test/CostScaling.cpp:12-32`), and the loops
over all arcs in `Init` and at the end of `MinCost`. `Verif.Proof.CSCost` shows that the functions below, the counters removed, are those of the model.
-/

namespace AHO
namespace CostScaling

/-- The counters:
* calls of `Refine`,
* iterations of `while (!st.empty())`,
* iterations of the loops over the edges of a node,
* calls of `Relabel`. -/
structure Steps where
  phases : Nat
  rounds : Nat
  scans : Nat
  relabels : Nat
  deriving DecidableEq

instance : Zero Steps := ⟨⟨0, 0, 0, 0⟩⟩

instance : Add Steps := ⟨fun a b => ⟨a.phases + b.phases, a.rounds + b.rounds, a.scans + b.scans, a.relabels + b.relabels⟩⟩

section refine
variable {D : Type} [Zero D] [Add D] [Sub D] [Mul D] [Div D] [IntCast D] [LT D] [DecidableLT D] [BEq D]

/-- `for (int i = head[u]; i != -1; i = edge[i].u)` around `saturate` (`test/CostScaling.cpp:16-23`), with the number of its iterations -/
def saturateNodeC (fuel : Nat) (cs : Nat × Refining D) (u : Nat) : Res (Nat × Refining D) := do
  let h ← cs.2.head.rd u
  let r ← whileLoop (fun (x : Nat × Refining D × Option Nat) => .ok x.2.2.isSome)
    (fun x => match x.2.2 with
      | none => .ok x
      | some i => do
        let s ← saturate u i x.2.1
        let e ← s.edge.rd i
        .ok (x.1 + 1, s, e.next))
    fuel (cs.1, cs.2, h)
  .ok (r.1, r.2.1)

/-- The loop of the lambda `Modify` (`test/CostScaling.cpp:55-63`), with the number of its iterations -/
def dischargeC (u : Nat) : Nat → Refining D → Res (Nat × Refining D × Bool)
  | 0, _ => .error .fuel
  | fuel + 1, s => do
    let c ← s.current_edge.rd u
    match c with
    | none => .ok (0, s, false)
    | some i => do
      let e ← s.edge.rd i
      let w ← s.costPi u e
      let s ← if w < 0 then do
          let x ← s.excess.rd u
          push u i (dmin e.capacity x) s
        else .ok s
      let x ← s.excess.rd u
      if x == 0 then .ok (1, s, true)
      else do
        let e ← s.edge.rd i
        let cur ← s.current_edge.wr u e.next
        let (k, r) ← dischargeC u fuel { s with current_edge := cur }
        .ok (k + 1, r)

/-- The lambda `Modify` (`test/CostScaling.cpp:53-69`) -/
def modifyC (fuel : Nat) (u : Nat) (s : Refining D) : Res (Steps × Refining D) := do
  let x ← s.excess.rd u
  if 0 < x then do
    let (k, s, ret) ← dischargeC u fuel s
    if ret then .ok (⟨0, 0, k, 0⟩, s)
    else do
      let x ← s.excess.rd u
      if 0 < x then do
        let s ← relabel u s
        let h ← s.head.rd u
        let cur ← s.current_edge.wr u h
        let vis ← s.vis.wr u true
        .ok (⟨0, 0, k, 1⟩, { s with current_edge := cur, st := u :: s.st, vis := vis })
      else .error .assertFail
  else .error .assertFail

/-- `while (!st.empty())` (`test/CostScaling.cpp:70-78`) -/
def refineLoopC (fuel : Nat) : Nat → Refining D → Res (Steps × Refining D × Bool)
  | 0, _ => .error .fuel
  | k + 1, s =>
    match s.st with
    | [] => .ok (0, s, true)
    | u :: st => do
      let vis ← s.vis.wr u false
      let s := { s with st := st, vis := vis }
      let a ← s.incp.rd u
      if s.epsilon * ((3 : Int) : D) * ((s.N : Int) : D) < a then .ok (⟨0, 1, 0, 0⟩, s, false)
      else do
        let (c, s) ← modifyC fuel u s
        let (c', r) ← refineLoopC fuel k s
        .ok (⟨0, 1, 0, 0⟩ + c + c', r)

/-- `Refine` (`test/CostScaling.cpp:11-80`) -/
def refineC (fuel : Nat) (s : CostScaling D) : Res (Steps × CostScaling D × Bool) := do
  let r : Refining D := { s with
    excess := Vec.replicate s.N 0
    incp := Vec.replicate s.N 0
    current_edge := s.head
    vis := Vec.replicate s.N false
    st := [] }
  let (k, r) ← forRange (saturateNodeC fuel) 0 s.N (0, r)
  let r ← forRange pushActive 0 s.N r
  let (c, r, b) ← refineLoopC fuel fuel r
  .ok (⟨1, 0, k, 0⟩ + c, r.toCostScaling, b)

end refine

section
variable {D : Type} [Zero D] [One D] [Add D] [Sub D] [Neg D] [Mul D] [Div D] [IntCast D] [LT D] [LE D] [DecidableLT D] [DecidableLE D] [BEq D]

/-- The loop of `MinCost` (`test/CostScaling.cpp:110-115`) -/
def scaleC (fuel : Nat) : Nat → CostScaling D → Res (Steps × CostScaling D × Bool)
  | 0, _ => .error .fuel
  | k + 1, s =>
    if 1 ≤ s.epsilon * ((s.N : Int) : D) then do
      let (c, s, b) ← refineC fuel s
      if b then do
        let (c', r) ← scaleC fuel k { s with epsilon := s.epsilon / ((2 : Int) : D) }
        .ok (c + c', r)
      else .ok (c, s, false)
    else .ok (0, s, true)

/-- `MinCost` (`test/CostScaling.cpp:106-120`) -/
def minCostC (imax : Int) (fuel : Nat) (n : Nat) (arc : List (InputEdge D)) : Res (Steps × Bool × D) := do
  let s ← init imax n arc
  let (c, s, b) ← scaleC fuel fuel s
  if b then
    let t := s.edge.toList.foldl (fun t e => t - e.capacity * (e.cost : D)) s.total_cost
    .ok (c, true, -t / ((2 : Int) : D))
  else .ok (c, false, 0)

end
end CostScaling
end AHO
