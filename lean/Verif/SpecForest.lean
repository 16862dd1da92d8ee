import Mathlib.Logic.Relation
import Mathlib.Algebra.Group.Basic
import Mathlib.Order.Defs.LinearOrder
/-!
# Specification of the dynamic forest and of the queue

The abstract objects which the link-cut tree and `UniqueQueue` are compared with. Nothing in this file refers to
the model.
-/

namespace AHO.Spec

/-- A forest on the nodes `0, 1, …`: parent (nothing at a root) and value of every node. -/
structure Forest (K : Type) where
  par : Nat → Option Nat
  val : Nat → K

/-- The operations of the link-cut tree. -/
inductive ForestOp (K : Type)
  | findRoot (x : Nat)
  | setFa (x f : Nat)
  | cut (x : Nat)
  | getVal (x : Nat)
  | setVal (x : Nat) (v : K)
  | addVal (x : Nat) (d : K)
  | getMin (x : Nat)

/-- What an operation returns. -/
inductive ForestAns (K : Type)
  | unit
  | node (r : Nat)
  | value (v : K)
  | min (v : K) (m : Nat)

namespace Forest
variable {K : Type}

/-- `n` isolated nodes with value zero -/
def init [Zero K] : Forest K := ⟨fun _ => none, fun _ => 0⟩

/-- `v` lies on the way from `x` to its root, both ends included. -/
def OnWay (F : Forest K) (x v : Nat) : Prop := Relation.ReflTransGen (fun a b => F.par a = some b) x v

/-- The precondition of an operation on a forest with `n` nodes. -/
def Pre (n : Nat) (F : Forest K) : ForestOp K → Prop
  | .findRoot x => x < n
  | .setFa x f => x < n ∧ f < n ∧ F.par x = none ∧ ¬ F.OnWay f x
  | .cut x => x < n ∧ F.par x ≠ none
  | .getVal x => x < n
  | .setVal x _ => x < n
  | .addVal x _ => x < n
  | .getMin x => x < n ∧ F.par x ≠ none

open Classical in
/-- The forest after an operation. -/
noncomputable def apply [Add K] (F : Forest K) : ForestOp K → Forest K
  | .findRoot _ => F
  | .setFa x f => ⟨fun v => if v = x then some f else F.par v, F.val⟩
  | .cut x => ⟨fun v => if v = x then none else F.par v, F.val⟩
  | .getVal _ => F
  | .setVal x c => ⟨F.par, fun v => if v = x then c else F.val v⟩
  | .addVal x d => ⟨F.par, fun v => if F.OnWay x v then F.val v + d else F.val v⟩
  | .getMin _ => F

/-- The correct answers of an operation. For `getMin`: among the nodes on the way to the root, the root excluded, `m`
has the least value `v`, and of those with this value it is the nearest to the root. -/
def Correct [LE K] (F : Forest K) : ForestOp K → ForestAns K → Prop
  | .findRoot x, .node r => F.OnWay x r ∧ F.par r = none
  | .setFa _ _, .unit => True
  | .cut _, .unit => True
  | .getVal x, .value v => v = F.val x
  | .setVal _ _, .unit => True
  | .addVal _ _, .unit => True
  | .getMin x, .min v m => v = F.val m ∧ F.OnWay x m ∧ F.par m ≠ none ∧
      (∀ y, F.OnWay x y → F.par y ≠ none → v ≤ F.val y) ∧
      ∀ y, F.OnWay x y → F.par y ≠ none → F.val y = v → F.OnWay y m
  | _, _ => False

/-- A history of operations, every one with its precondition met, and correct answers to them. -/
inductive History [Add K] [LE K] (n : Nat) : Forest K → List (ForestOp K) → List (ForestAns K) → Forest K → Prop
  | nil (F) : History n F [] [] F
  | cons {F op a ops as F'} : F.Pre n op → F.Correct op a → History n (F.apply op) ops as F' →
      History n F (op :: ops) (a :: as) F'

/-- The preconditions are met all along. -/
def Valid [Add K] (n : Nat) : Forest K → List (ForestOp K) → Prop
  | _, [] => True
  | F, op :: ops => F.Pre n op ∧ Valid n (F.apply op) ops

/-- The operation walks from `x` to its root. -/
def Walks (x : Nat) : ForestOp K → Prop
  | .findRoot y => y = x
  | .cut y => y = x
  | .addVal y _ => y = x
  | .getMin y => y = x
  | _ => False

/-- Every `setFa x f`, unless it is the last operation, is followed at once by an operation which walks from `x` to its root. -/
def Linked : List (ForestOp K) → Prop
  | [] => True
  | .setFa x _ :: ops => match ops with
    | [] => True
    | op :: ops => Walks x op ∧ Linked ops
  | _ :: ops => Linked ops

end Forest

/-! ### The queue -/

/-- Operations of a queue of distinct numbers. -/
inductive QueueOp
  | push (x : Nat)
  | pop
  | clear

/-- The contents, oldest first, after an operation; nothing if the operation is not allowed. Numbers must be below
`n`, and `pop` needs an element. -/
def queueApply (n : Nat) (q : List Nat) : QueueOp → Option (List Nat)
  | .push x => if x < n then (if x ∈ q then some q else some (q ++ [x])) else none
  | .pop => match q with
    | [] => none
    | _ :: q => some q
  | .clear => some []

end AHO.Spec
