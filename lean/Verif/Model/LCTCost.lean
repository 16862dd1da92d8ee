import Verif.Model.LCT
/-!
# The link-cut tree with a count of its steps

The functions of `Verif.Model.LCT` once more, statement by statement, with a counter. Counted are the calls of `rot` and of
`push_down_from_root` (which is recursive) and the iterations of the loop of `access`; apart from these, the iterations of the
loops of `find_root` and `get_min_wtrbnr`, which walk along left children without changing the tree. Every other
statement takes constant time. `Verif.Proof.LCTCost` shows that the functions below, the counters removed, are those of `Verif.Model.LCT`.
-/

namespace AHO.LCT
variable {D : Type} [Add D] [Zero D] [BEq D] [LT D] [LE D] [DecidableLT D] [DecidableLE D]

/-- `Node::push_down_from_root` (`3rd/lct/LCT.cpp:89-93`), with the number of calls. -/
def pushDownFromRootC : Nat → Heap D → Nat → Res (Nat × Heap D)
  | 0, _, _ => .error .fuel
  | fuel + 1, h, x => do
    let r ← isRoot h x
    let (k, h) ← if !r then do
        let n ← h.rd x
        let f ← deref n.fa
        pushDownFromRootC fuel h f
      else .ok (0, h)
    let h ← pushDown h x
    .ok (k + 1, h)

/-- One iteration of the loop in `Node::splay` (`3rd/lct/LCT.cpp:110-112`), with the number of calls of `rot`. -/
def splayStepC (h : Heap D) (x : Nat) : Res (Nat × Heap D) := do
  let n ← h.rd x
  let f ← deref n.fa
  let fr ← isRoot h f
  let (k, h) ← if !fr then do
      let dx ← dir h x
      let df ← dir h f
      let h ← if dx = df then rot h f else rot h x
      .ok (1, h)
    else .ok (0, h)
  let h ← rot h x
  .ok (k + 1, h)

/-- `Node::splay` (`3rd/lct/LCT.cpp:107-116`), with the number of calls of `push_down_from_root` and of `rot`. -/
def splayC (fuel : Nat) (h : Heap D) (x : Nat) : Res (Nat × Heap D) := do
  let (k, h) ← pushDownFromRootC fuel h x
  let (m, h) ← whileLoop (fun s : Nat × Heap D => do let r ← isRoot s.2 x; .ok (!r))
    (fun s => do let (k, h) ← splayStepC s.2 x; .ok (s.1 + k, h)) fuel (0, h)
  let h ← pushUp h x
  .ok (k + m, h)

/-- The loop of `Node::access` (`3rd/lct/LCT.cpp:119-122`), with the number of steps. -/
def accessLoopC (fuel0 : Nat) : Nat → Heap D → Option Nat → Option Nat → Res (Nat × Heap D)
  | 0, _, _, _ => .error .fuel
  | fuel + 1, h, p, q =>
    match p with
    | none => .ok (0, h)
    | some p => do
      let (k, h) ← splayC fuel0 h p
      let h ← setc h p q true
      let h ← pushUp h p
      let n ← h.rd p
      let (m, h) ← accessLoopC fuel0 fuel h n.fa (some p)
      .ok (k + 1 + m, h)

/-- `Node::access` (`3rd/lct/LCT.cpp:118-124`), with the number of steps. -/
def accessC (fuel : Nat) (h : Heap D) (x : Nat) : Res (Nat × Heap D) := do
  let (k, h) ← accessLoopC fuel fuel h (some x) none
  let (m, h) ← splayC fuel h x
  .ok (k + m, h)

/-- `while (x->ch[0]) x = x->ch[0];` (`3rd/lct/LCT.cpp:9-10`), with the number of iterations. -/
def leftmostC (h : Heap D) : Nat → Nat → Res (Nat × Nat)
  | 0, _ => .error .fuel
  | fuel + 1, x => do
    let n ← h.rd x
    match n.ch0 with
    | none => .ok (0, x)
    | some c => do
      let (k, r) ← leftmostC h fuel c
      .ok (k + 1, r)

/-- `Node::find_root` (`3rd/lct/LCT.cpp:7-12`): steps of `access`, iterations of the loop, result, nodes. -/
def findRootC (fuel : Nat) (h : Heap D) (x : Nat) : Res (Nat × Nat × Nat × Heap D) := do
  let (k, h) ← accessC fuel h x
  let (m, r) ← leftmostC h fuel x
  .ok (k, m, r, h)

/-- `Node::set_fa` (`3rd/lct/LCT.cpp:14-18`), with the number of steps. -/
def setFaC (fuel : Nat) (h : Heap D) (x : Nat) (f : Nat) : Res (Nat × Heap D) := do
  let (k, h) ← splayC fuel h x
  let n ← h.rd x
  if n.fa = none then do
    let h ← h.wr x { n with fa := some f }
    .ok (k, h)
  else .error .assertFail

/-- `Node::cut` (`3rd/lct/LCT.cpp:20-26`), with the number of steps. -/
def cutC (fuel : Nat) (h : Heap D) (x : Nat) : Res (Nat × Heap D) := do
  let (k, h) ← accessC fuel h x
  let n ← h.rd x
  match n.ch0 with
  | none => .error .assertFail
  | some c => do
    let nc ← h.rd c
    let h ← h.wr c { nc with fa := none }
    let n ← h.rd x
    let h ← h.wr x { n with ch0 := none }
    let h ← pushUp h x
    .ok (k, h)

/-- `Node::get_val` (`3rd/lct/LCT.cpp:28-32`), with the number of steps. -/
def getValC (fuel : Nat) (h : Heap D) (x : Nat) : Res (Nat × D × Heap D) := do
  let r ← isRoot h x
  let (k, h) ← if !r then accessC fuel h x else .ok (0, h)
  let n ← h.rd x
  .ok (k, n.val, h)

/-- The loop of `Node::get_min_wtrbnr` (`3rd/lct/LCT.cpp:37-42`), with the number of iterations. -/
def getMinLoopC : Nat → Heap D → Nat → D × Option Nat → Res (Nat × (D × Option Nat) × Heap D)
  | 0, _, _, _ => .error .fuel
  | fuel + 1, h, p, ret => do
    let h ← pushDown h p
    let n ← h.rd p
    let ret ← match n.ch1 with
      | none => .ok ret
      | some c => do
        let nc ← h.rd c
        .ok (if nc.minV ≤ ret.1 then (nc.minV, nc.minP) else ret)
    match n.ch0 with
    | none => .ok (1, ret, h)
    | some c => do
      let (k, r) ← getMinLoopC fuel h c (if n.val ≤ ret.1 then (n.val, some p) else ret)
      .ok (k + 1, r)

/-- `Node::get_min_wtrbnr` (`3rd/lct/LCT.cpp:34-44`): steps of `access`, iterations of the loop, result, nodes. -/
def getMinC (fuel : Nat) (h : Heap D) (x : Nat) : Res (Nat × Nat × (D × Option Nat) × Heap D) := do
  let (k, h) ← accessC fuel h x
  let n ← h.rd x
  let (m, r) ← getMinLoopC fuel h x (n.val, some x)
  .ok (k, m, r)

/-- `Node::set_val` (`3rd/lct/LCT.cpp:46-51`), with the number of steps. -/
def setValC (fuel : Nat) (h : Heap D) (x : Nat) (v : D) : Res (Nat × Heap D) := do
  let r ← isRoot h x
  let (k, h) ← if !r then accessC fuel h x else .ok (0, h)
  let n ← h.rd x
  let h ← h.wr x { n with val := v }
  let h ← pushUp h x
  .ok (k, h)

/-- `Node::add_val_way_to_root` (`3rd/lct/LCT.cpp:53-56`), with the number of steps. -/
def addValWayToRootC (fuel : Nat) (h : Heap D) (x : Nat) (d : D) : Res (Nat × Heap D) := do
  let (k, h) ← accessC fuel h x
  let h ← updateAdd h x d
  .ok (k, h)

end AHO.LCT
