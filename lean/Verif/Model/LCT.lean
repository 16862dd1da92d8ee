import Verif.Model.Base
/-!
# Model of `3rd/lct/LCT.hpp` and `3rd/lct/LCT.cpp`

The nodes live in one `std::vector<LCT::Node>` (`src/Flow.hpp:58`); a pointer `Node*` is `Option Nat`
(the index in that vector, or null).
-/

namespace AHO

/-- `struct LCT::Node` (`3rd/lct/LCT.hpp:12-53`): `fa`, `ch[0]`, `ch[1]`, `min` (a pair), `val`, `add`. -/
structure LNode (D : Type) where
  fa : Option Nat
  ch0 : Option Nat
  ch1 : Option Nat
  minV : D
  minP : Option Nat
  val : D
  add : D

/-- The node vector. -/
abbrev Heap (D : Type) := Vec (LNode D)

namespace LCT
variable {D : Type}

/-- `ch[d]` -/
def LNode.ch (n : LNode D) (d : Bool) : Option Nat := if d then n.ch1 else n.ch0

/-- `ch[d] = p` -/
def LNode.setCh (n : LNode D) (d : Bool) (p : Option Nat) : LNode D :=
  if d then { n with ch1 := p } else { n with ch0 := p }

/-- Dereference of a possibly null pointer to an index. -/
def deref (p : Option Nat) : Res Nat :=
  match p with
  | none => .error .null
  | some x => .ok x

/-- `*this` after value initialisation (`std::vector<LCT::Node> nodes(n + 1)`, `src/Flow.cpp:7`;
`Node() = default`, `3rd/lct/LCT.hpp:24`): all members zero. -/
def initNode [Zero D] : LNode D :=
  { fa := none, ch0 := none, ch1 := none, minV := 0, minP := none, val := 0, add := 0 }

/-- `Node::setc` (`3rd/lct/LCT.cpp:64-67`), `this = x`. -/
def setc (h : Heap D) (x : Nat) (p : Option Nat) (d : Bool) : Res (Heap D) := do
  let n ← h.rd x
  let h ← h.wr x (LNode.setCh n d p)
  match p with
  | none => .ok h
  | some c => do
    let nc ← h.rd c
    h.wr c { nc with fa := some x }

/-- `Node::d` (`3rd/lct/LCT.cpp:69`). -/
def dir (h : Heap D) (x : Nat) : Res Bool := do
  let n ← h.rd x
  let f ← deref n.fa
  let nf ← h.rd f
  .ok (decide (nf.ch1 = some x))

/-- `Node::is_root` (`3rd/lct/LCT.cpp:71-73`). -/
def isRoot (h : Heap D) (x : Nat) : Res Bool := do
  let n ← h.rd x
  match n.fa with
  | none => .ok true
  | some f => do
    let nf ← h.rd f
    .ok (decide (nf.ch0 ≠ some x) && decide (nf.ch1 ≠ some x))

section
variable [LT D] [LE D] [DecidableLT D] [DecidableLE D]

/-- `Node::push_up` (`3rd/lct/LCT.cpp:58-62`). -/
def pushUp (h : Heap D) (x : Nat) : Res (Heap D) := do
  let n ← h.rd x
  let m0 : D × Option Nat := (n.val, some x)
  let m1 : D × Option Nat ← match n.ch0 with
    | none => .ok m0
    | some c => do
      let nc ← h.rd c
      .ok (if nc.minV ≤ m0.1 then (nc.minV, nc.minP) else m0)
  let m2 : D × Option Nat ← match n.ch1 with
    | none => .ok m1
    | some c => do
      let nc ← h.rd c
      .ok (if nc.minV < m1.1 then (nc.minV, nc.minP) else m1)
  h.wr x { n with minV := m2.1, minP := m2.2 }

/-- `Node::rot` (`3rd/lct/LCT.cpp:95-105`), `this = x`. `cc = (ff && fa->d())`. -/
def rot (h : Heap D) (x : Nat) : Res (Heap D) := do
  let nx ← h.rd x
  let f ← deref nx.fa
  let nf ← h.rd f
  let ff := nf.fa
  let c ← dir h x
  let cc ← match ff with
    | none => .ok false
    | some _ => dir h f
  let h ← setc h f (LNode.ch nx (!c)) c
  let h ← setc h x (some f) (!c)
  let h ← match ff with
    | none => do
      let n ← h.rd x
      h.wr x { n with fa := none }
    | some g => do
      let ng ← h.rd g
      if LNode.ch ng cc = some f then setc h g (some x) cc
      else do
        let n ← h.rd x
        h.wr x { n with fa := some g }
  pushUp h f

end

section
variable [Add D]

/-- `Node::update_add` (`3rd/lct/LCT.cpp:75-79`). -/
def updateAdd (h : Heap D) (x : Nat) (w : D) : Res (Heap D) := do
  let n ← h.rd x
  h.wr x { n with val := n.val + w, add := n.add + w, minV := n.minV + w }

variable [Zero D] [BEq D]

/-- `Node::push_down` (`3rd/lct/LCT.cpp:81-87`). -/
def pushDown (h : Heap D) (x : Nat) : Res (Heap D) := do
  let n ← h.rd x
  if !(n.add == 0) then do
    let h ← match n.ch0 with
      | none => .ok h
      | some c => updateAdd h c n.add
    let h ← match n.ch1 with
      | none => .ok h
      | some c => updateAdd h c n.add
    let n ← h.rd x
    h.wr x { n with add := 0 }
  else .ok h

/-- `Node::push_down_from_root` (`3rd/lct/LCT.cpp:89-93`); recursion depth bounded by the fuel. -/
def pushDownFromRoot : Nat → Heap D → Nat → Res (Heap D)
  | 0, _, _ => .error .fuel
  | fuel + 1, h, x => do
    let r ← isRoot h x
    let h ← if !r then do
        let n ← h.rd x
        let f ← deref n.fa
        pushDownFromRoot fuel h f
      else .ok h
    pushDown h x

variable [LT D] [LE D] [DecidableLT D] [DecidableLE D]

/-- One iteration of the loop in `Node::splay` (`3rd/lct/LCT.cpp:110-112`). -/
def splayStep (h : Heap D) (x : Nat) : Res (Heap D) := do
  let n ← h.rd x
  let f ← deref n.fa
  let fr ← isRoot h f
  let h ← if !fr then do
      let dx ← dir h x
      let df ← dir h f
      if dx = df then rot h f else rot h x
    else .ok h
  rot h x

/-- `Node::splay` (`3rd/lct/LCT.cpp:107-116`); it returns `this`. -/
def splay (fuel : Nat) (h : Heap D) (x : Nat) : Res (Heap D) := do
  let h ← pushDownFromRoot fuel h x
  let h ← whileLoop (fun h => do let r ← isRoot h x; .ok (!r)) (fun h => splayStep h x) fuel h
  pushUp h x

/-- The loop of `Node::access` (`3rd/lct/LCT.cpp:119-122`) with loop variables `p`, `q`. -/
def accessLoop (fuel0 : Nat) : Nat → Heap D → Option Nat → Option Nat → Res (Heap D)
  | 0, _, _, _ => .error .fuel
  | fuel + 1, h, p, q =>
    match p with
    | none => .ok h
    | some p => do
      let h ← splay fuel0 h p
      let h ← setc h p q true
      let h ← pushUp h p
      let n ← h.rd p
      accessLoop fuel0 fuel h n.fa (some p)

/-- `Node::access` (`3rd/lct/LCT.cpp:118-124`); it returns `this`. -/
def access (fuel : Nat) (h : Heap D) (x : Nat) : Res (Heap D) := do
  let h ← accessLoop fuel fuel h (some x) none
  splay fuel h x

/-- `while (x->ch[0]) x = x->ch[0];` (`3rd/lct/LCT.cpp:9-10`). -/
def leftmost (h : Heap D) : Nat → Nat → Res Nat
  | 0, _ => .error .fuel
  | fuel + 1, x => do
    let n ← h.rd x
    match n.ch0 with
    | none => .ok x
    | some c => leftmost h fuel c

/-- `Node::find_root` (`3rd/lct/LCT.cpp:7-12`). -/
def findRoot (fuel : Nat) (h : Heap D) (x : Nat) : Res (Nat × Heap D) := do
  let h ← access fuel h x
  let r ← leftmost h fuel x
  .ok (r, h)

/-- `Node::set_fa` (`3rd/lct/LCT.cpp:14-18`). -/
def setFa (fuel : Nat) (h : Heap D) (x : Nat) (f : Nat) : Res (Heap D) := do
  let h ← splay fuel h x
  let n ← h.rd x
  if n.fa = none then h.wr x { n with fa := some f }
  else .error .assertFail

/-- `Node::cut` (`3rd/lct/LCT.cpp:20-26`). -/
def cut (fuel : Nat) (h : Heap D) (x : Nat) : Res (Heap D) := do
  let h ← access fuel h x
  let n ← h.rd x
  match n.ch0 with
  | none => .error .assertFail
  | some c => do
    let nc ← h.rd c
    let h ← h.wr c { nc with fa := none }
    let n ← h.rd x
    let h ← h.wr x { n with ch0 := none }
    pushUp h x

/-- `Node::get_val` (`3rd/lct/LCT.cpp:28-32`). -/
def getVal (fuel : Nat) (h : Heap D) (x : Nat) : Res (D × Heap D) := do
  let r ← isRoot h x
  let h ← if !r then access fuel h x else .ok h
  let n ← h.rd x
  .ok (n.val, h)

/-- The loop of `Node::get_min_wtrbnr` (`3rd/lct/LCT.cpp:37-42`). -/
def getMinLoop : Nat → Heap D → Nat → D × Option Nat → Res ((D × Option Nat) × Heap D)
  | 0, _, _, _ => .error .fuel
  | fuel + 1, h, p, ret => do
    let h ← pushDown h p
    let n ← h.rd p
    let ret ← match n.ch1 with
      | none => .ok ret
      | some c => do
        let nc ← h.rd c
        .ok (if nc.minV ≤ ret.1 then (nc.minV, nc.minP) else ret)
    match n.ch0 with
    | none => .ok (ret, h)
    | some c => getMinLoop fuel h c (if n.val ≤ ret.1 then (n.val, some p) else ret)

/-- `Node::get_min_wtrbnr` (`3rd/lct/LCT.cpp:34-44`). -/
def getMin (fuel : Nat) (h : Heap D) (x : Nat) : Res ((D × Option Nat) × Heap D) := do
  let h ← access fuel h x
  let n ← h.rd x
  getMinLoop fuel h x (n.val, some x)

/-- `Node::set_val` (`3rd/lct/LCT.cpp:46-51`). -/
def setVal (fuel : Nat) (h : Heap D) (x : Nat) (v : D) : Res (Heap D) := do
  let r ← isRoot h x
  let h ← if !r then access fuel h x else .ok h
  let n ← h.rd x
  let h ← h.wr x { n with val := v }
  pushUp h x

/-- `Node::add_val_way_to_root` (`3rd/lct/LCT.cpp:53-56`). -/
def addValWayToRoot (fuel : Nat) (h : Heap D) (x : Nat) (d : D) : Res (Heap D) := do
  let h ← access fuel h x
  updateAdd h x d

end

end LCT
end AHO
