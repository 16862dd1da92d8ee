import Verif.Model.Base
/-!
# Model of `src/UniqueQueue.cpp`
-/

namespace AHO

/-- `class UniqueQueue` (`src/UniqueQueue.hpp:9-26`). `std::queue` is a list, front first. -/
structure UQ where
  queue : List Nat
  isIn : Vec Bool

namespace UQ

/-- `UniqueQueue::UniqueQueue` (`src/UniqueQueue.cpp:3`). -/
def mk' (n : Nat) : UQ := ⟨[], Vec.replicate n false⟩

/-- `UniqueQueue::push` (`src/UniqueQueue.cpp:5-9`). -/
def push (q : UQ) (x : Nat) : Res UQ := do
  let b ← q.isIn.rd x
  if b then .ok q
  else do
    let v ← q.isIn.wr x true
    .ok ⟨q.queue ++ [x], v⟩

/-- `UniqueQueue::front` (`src/UniqueQueue.cpp:11`). -/
def front (q : UQ) : Res Nat :=
  match q.queue with
  | [] => .error .emptyQueue
  | x :: _ => .ok x

/-- `UniqueQueue::pop` (`src/UniqueQueue.cpp:13-16`). -/
def pop (q : UQ) : Res UQ :=
  match q.queue with
  | [] => .error .emptyQueue
  | x :: xs => do
    let v ← q.isIn.wr x false
    .ok ⟨xs, v⟩

/-- `UniqueQueue::empty` (`src/UniqueQueue.cpp:18`). -/
def empty (q : UQ) : Bool := q.queue.isEmpty

/-- `UniqueQueue::clear` (`src/UniqueQueue.cpp:20-23`). -/
def clear (q : UQ) : UQ := ⟨[], Vec.replicate q.isIn.size false⟩

end UQ
end AHO
