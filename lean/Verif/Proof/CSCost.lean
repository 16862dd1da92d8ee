import Verif.Model.CostScalingCost
import Verif.Proof.FlowCost
/-!
# `CostScaling` with counters is `CostScaling`
-/

namespace AHO
namespace CostScaling
set_option linter.unusedSectionVars false

section refine
variable {D : Type} [Zero D] [Add D] [Sub D] [Mul D] [Div D] [IntCast D] [LT D] [DecidableLT D] [BEq D]

theorem saturateNodeC_er (fuel : Nat) (cs : Nat × Refining D) (u : Nat) : Er (saturateNodeC fuel cs u) (saturateNode fuel cs.2 u) := by
  unfold saturateNodeC saturateNode
  refine .bind' fun h => ?_
  refine (whileLoop_er (γ := Nat) (α := Refining D × Option Nat) (cond' := fun x => .ok x.2.isSome)
    (body' := fun x => match x.2 with
      | none => .ok x
      | some i => do
        let s ← saturate u i x.1
        let e ← s.edge.rd i
        .ok (s, e.next)) (fun _ => rfl) (fun x => ?_) fuel (cs.1, cs.2, h)).bind fun c s => .ok _ _
  obtain ⟨c, s, i⟩ := x
  cases i with
  | none => exact .ok _ _
  | some i => exact .bind' fun s => .bind' fun e => .ok _ _

theorem dischargeC_er (u : Nat) : ∀ (fuel : Nat) (s : Refining D), Er (dischargeC u fuel s) (discharge u fuel s) := by
  intro fuel
  induction fuel with
  | zero => intro s; exact .error _
  | succ fuel ih =>
    intro s
    unfold dischargeC discharge
    refine .bind' fun c => ?_
    cases c with
    | none => exact .ok _ _
    | some i =>
      dsimp only
      have key : ∀ s : Refining D, Er (do
          let x ← s.excess.rd u
          if (x == 0) = true then (.ok (1, s, true) : Res (Nat × Refining D × Bool))
          else do
            let e ← s.edge.rd i
            let cur ← s.current_edge.wr u e.next
            let (k, r) ← dischargeC u fuel { s with current_edge := cur }
            .ok (k + 1, r)) (do
          let x ← s.excess.rd u
          if (x == 0) = true then (.ok (s, true) : Res (Refining D × Bool))
          else do
            let e ← s.edge.rd i
            let cur ← s.current_edge.wr u e.next
            discharge u fuel { s with current_edge := cur }) := by
        intro s
        refine .bind' fun x => ?_
        split
        · exact .ok _ _
        · exact .bind' fun e => .bind' fun cur => (ih _).recount (· + 1)
      refine .bind' fun e => .bind' fun w => ?_
      split
      · exact .bind' fun x => .bind' fun s => key s
      · exact key s

theorem modifyC_er (fuel u : Nat) (s : Refining D) : Er (modifyC fuel u s) (modify fuel u s) := by
  unfold modifyC modify
  refine .bind' fun x => ?_
  split
  · refine (dischargeC_er u fuel s).bind fun k r => ?_
    obtain ⟨s, ret⟩ := r
    cases ret with
    | true => exact .ok _ _
    | false =>
      refine .bind' fun x => ?_
      split
      · exact .bind' fun s => .bind' fun h => .bind' fun cur => .bind' fun vis => .ok _ _
      · exact .error _
  · exact .error _

theorem refineLoopC_er (fuel : Nat) : ∀ (k : Nat) (s : Refining D), Er (refineLoopC fuel k s) (refineLoop fuel k s) := by
  intro k
  induction k with
  | zero => intro s; exact .error _
  | succ k ih =>
    intro s
    unfold refineLoopC refineLoop
    cases s.st with
    | nil => exact .ok _ _
    | cons u st =>
      refine .bind' fun vis => .bind' fun a => ?_
      split
      · exact .ok _ _
      · exact (modifyC_er _ _ _).bind fun c s => (ih s).recount (fun c' => ⟨0, 1, 0, 0⟩ + c + c')

theorem refineC_er (fuel : Nat) (s : CostScaling D) : Er (refineC fuel s) (refine fuel s) := by
  unfold refineC refine
  exact (forRange_er (body' := saturateNode fuel) (fun cs i => saturateNodeC_er fuel cs i) _ _ (0, _)).bind fun k r =>
    .bind' fun r => (refineLoopC_er _ _ _).bind fun c x => .ok _ _

end refine

section
variable {D : Type} [Zero D] [One D] [Add D] [Sub D] [Neg D] [Mul D] [Div D] [IntCast D] [LT D] [LE D] [DecidableLT D] [DecidableLE D] [BEq D]

theorem scaleC_er (fuel : Nat) : ∀ (k : Nat) (s : CostScaling D), Er (scaleC fuel k s) (scale fuel k s) := by
  intro k
  induction k with
  | zero => intro s; exact .error _
  | succ k ih =>
    intro s
    unfold scaleC scale
    split
    · refine (refineC_er _ _).bind fun c x => ?_
      obtain ⟨s, b⟩ := x
      cases b with
      | true => exact (ih _).recount (fun c' => c + c')
      | false => exact .ok _ _
    · exact .ok _ _

theorem minCostC_er (imax : Int) (fuel : Nat) (n : Nat) (arc : List (InputEdge D)) : Er (minCostC imax fuel n arc) (minCost imax fuel n arc) := by
  unfold minCostC minCost
  refine .bind' fun s => (scaleC_er _ _ _).bind fun c x => ?_
  obtain ⟨s, b⟩ := x
  cases b <;> exact .ok _ _

end
end CostScaling
end AHO
