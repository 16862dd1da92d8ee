import Verif.Proof.SafeSolver
import Verif.Props.NonConvex
import Verif.Props.Infinite
import Verif.Props.Solver
import Verif.Props.Structures
/-!
# C64: memory safety, whatever the costs and the arithmetic

C05 and C08 say that the program has no undefined behaviour, but for convex costs, exact arithmetic and ranges for which `int` is large
enough. Here nothing at all is assumed about the type of the costs: its operations and comparisons are any functions (rounding, NaN,
infinities, wrap-around). The costs need not be convex, and the limits may be malformed.
-/

namespace AHO.Props
open Format Spec

/-- C64. If the callbacks can be called on their ranges, the program returns, or goes on for ever, or an `int` overflows, or an `assert`
of the program fails. Nothing else happens: no index is out of bounds, no null pointer is followed, nothing is taken out of an empty queue,
no callback is called outside its range, nothing is divided by zero. The bound for `n` is needed, see C33. -/
theorem C64_memory_safe {D : Type} [Zero D] [One D] [Add D] [Sub D] [Neg D] [Mul D] [Div D] [IntCast D]
    [LT D] [LE D] [DecidableLT D] [DecidableLE D] [BEq D] {n : Nat} {Mus : List (MuLimit D)} {Omegas : List (OmegaLimit D)}
    (hn : n + 1 < 2 ^ 64)
    (hm : ∀ i m, 1 ≤ i → Mus[i]? = some m → ∀ x, m.l ≤ x → x ≤ m.u → ∃ v, m.fn x = .ok v)
    (ho : ∀ o, o ∈ Omegas → ∀ x, o.l ≤ x → x ≤ o.u → ∃ v, o.fn x = .ok v) (imax : Int) (fuel : Nat) (e : Err)
    (he : ProblemSolver.run imax fuel n Mus Omegas = .error e) : e = .fuel ∨ e = .overflow ∨ e = .assertFail := by
  have h := ProblemSolver.run_safe imax fuel hn hm ho
  rw [he] at h
  exact h

/-- The costs 0, 2, 0 are not convex, and the program goes on for ever; the callbacks fail outside their ranges. -/
example : (∀ i m, 1 ≤ i → (cycleMus.map fun m => { m with fn := guardFn m.l m.u m.fn })[i]? = some m →
      ∀ x, m.l ≤ x → x ≤ m.u → ∃ v, m.fn x = .ok v) ∧
    ProblemSolver.run 144 200 2 (cycleMus.map fun m => { m with fn := guardFn m.l m.u m.fn }) [] = .error .fuel := by
  refine ⟨fun i m h1 h2 x a b => ?_, by decide +kernel⟩
  match i, h1, h2 with
  | 1, _, h2 => cases h2; exact ⟨_, if_pos ⟨a, b⟩⟩
  | 2, _, h2 => cases h2; exact ⟨_, if_pos ⟨a, b⟩⟩

/-- An infinite cost of type `double`: the program computes with numbers which are not numbers until an `int` overflows. -/
example : (∀ i m, 1 ≤ i → infiniteMus[i]? = some m → ∀ x, m.l ≤ x → x ≤ m.u → ∃ v, m.fn x = .ok v) ∧
    ∃ N, ∀ fuel, N ≤ fuel → ProblemSolver.run 1000 fuel 1 infiniteMus [] = .error .overflow := by
  refine ⟨fun i m h1 h2 x a b => ?_, C62_infinite_cost.2.2.2.2.2 1000⟩
  match i, h1, h2 with
  | 1, _, h2 => cases h2; exact ⟨_, rfl⟩

/-- the operation is on the nodes `0, …, n - 1` -/
def OnNodes {D : Type} (n : Nat) : ForestOp D → Prop
  | .findRoot x | .cut x | .getVal x | .setVal x _ | .addVal x _ | .getMin x => x < n
  | .setFa x f => x < n ∧ f < n

section
variable {D : Type} [Zero D] [Add D] [LT D] [LE D] [DecidableLT D] [DecidableLE D] [BEq D]

theorem lctStep_safe {n : Nat} (fuel : Nat) {h : Heap D} (o : LCT.Mem.PtrOk n h) {op : ForestOp D} (hx : OnNodes n op) :
    Safe (lctStep fuel h op) (fun r => LCT.Mem.PtrOk n r.2) := by
  cases op with
  | findRoot x => exact (LCT.Mem.findRoot_safe fuel o hx).bind fun r hr => hr.2
  | setFa x f => exact (LCT.Mem.setFa_safe fuel o hx.1 hx.2).bind fun h hh => hh
  | cut x => exact (LCT.Mem.cut_safe fuel o hx).bind fun h hh => hh
  | getVal x => exact (LCT.Mem.getVal_safe fuel o hx).bind fun r hr => hr
  | setVal x v => exact (LCT.Mem.setVal_safe fuel o hx v).bind fun h hh => hh
  | addVal x d => exact (LCT.Mem.addValWayToRoot_safe fuel o hx d).bind fun h hh => hh
  | getMin x =>
    refine (LCT.Mem.getMin_safe fuel o hx).bind fun r hr => ?_
    obtain ⟨⟨v, m⟩, h'⟩ := r
    obtain ⟨⟨m', rfl, _⟩, hh⟩ := hr
    exact hh

theorem lctRun_safe {n : Nat} (fuel : Nat) : ∀ (ops : List (ForestOp D)) {h : Heap D}, LCT.Mem.PtrOk n h → (∀ op ∈ ops, OnNodes n op) →
    Safe (lctRun fuel h ops) (fun r => LCT.Mem.PtrOk n r.2)
  | [], _, o, _ => o
  | op :: ops, _, o, hx => (lctStep_safe fuel o (hx op (List.mem_cons_self ..))).bind fun _ hr =>
    (lctRun_safe fuel ops hr fun op h => hx op (List.mem_cons_of_mem _ h)).bind fun _ hr' => hr'

/-- C64. The same for the link-cut tree alone: whatever the sequence of operations on existing nodes – also if it closes a cycle, links a
node which has a parent, or cuts a root – no null pointer is followed before an `assert` has failed. -/
theorem C64_tree (n fuel : Nat) (ops : List (ForestOp D)) (hx : ∀ op ∈ ops, OnNodes n op) (e : Err)
    (he : lctRun fuel (lctInit n) ops = .error e) : e = .fuel ∨ e = .overflow ∨ e = .assertFail := by
  have h := lctRun_safe fuel ops (LCT.Mem.init_ok (D := D) n) hx
  unfold lctInit at he
  rw [he] at h
  exact h

end

/-- Two nodes are linked to each other, then their root is asked for; a node is linked twice; a root is cut. -/
example : (lctRun 50 (lctInit 2 : Heap ℤ) [.setFa 0 1, .setFa 1 0, .findRoot 0]).map (fun _ => ()) = .error .fuel ∧
    (lctRun 50 (lctInit 3 : Heap ℤ) [.setFa 0 1, .setFa 0 2]).map (fun _ => ()) = .error .assertFail ∧
    (lctRun 50 (lctInit 2 : Heap ℤ) [.cut 0]).map (fun _ => ()) = .error .assertFail ∧
    ∀ op ∈ ([.setFa 0 1, .setFa 1 0, .findRoot 0] : List (ForestOp ℤ)), OnNodes 2 op := by
  refine ⟨by decide +kernel, by decide +kernel, by decide +kernel, ?_⟩
  simp [OnNodes]

end AHO.Props
