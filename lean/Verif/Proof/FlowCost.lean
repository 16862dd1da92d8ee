import Verif.Model.FlowCost
import Verif.Proof.LCTCost
/-!
# Without the counters, the counting functions are those of `Flow`
-/

namespace AHO

theorem Er.bind2 {γ ε δ α β : Type} {x : Res (γ × ε × α)} {y : Res α} {f : γ × ε × α → Res (δ × β)} {g : α → Res β}
    (h : Er (x >>= fun s => .ok (s.1, s.2.2)) y) (hf : ∀ k w a, Er (f (k, w, a)) (g a)) : Er (x >>= f) (y >>= g) := by
  cases x with
  | error e => cases h; rfl
  | ok a => cases h; exact hf a.1 a.2.1 a.2.2

theorem whileLoop_er {γ α : Type} {cond : γ × α → Res Bool} {cond' : α → Res Bool} {body : γ × α → Res (γ × α)} {body' : α → Res α}
    (hc : ∀ s, cond s = cond' s.2) (hb : ∀ s, Er (body s) (body' s.2)) :
    ∀ (fuel : Nat) (s : γ × α), Er (whileLoop cond body fuel s) (whileLoop cond' body' fuel s.2) := by
  intro fuel
  induction fuel with
  | zero => intro s; exact .error _
  | succ fuel ih =>
    intro s
    unfold whileLoop
    rw [hc]
    refine .bind' fun b => ?_
    cases b with
    | false => exact .ok _ _
    | true => exact (hb s).bind fun k a => ih (k, a)

theorem forRange_er {γ α : Type} {body : γ × α → Nat → Res (γ × α)} {body' : α → Nat → Res α} (hb : ∀ s i, Er (body s i) (body' s.2 i)) :
    ∀ (k i : Nat) (s : γ × α), Er (forRange body i k s) (forRange body' i k s.2) := by
  intro k
  induction k with
  | zero => intro i s; exact .ok _ _
  | succ k ih => intro i s; exact (hb s i).bind fun c a => ih (i + 1) (c, a)

namespace Flow
set_option linter.unusedSectionVars false
variable {D : Type} [Zero D] [One D] [Add D] [Sub D] [Neg D] [BEq D] [LT D] [LE D] [DecidableLT D] [DecidableLE D]

theorem qC_er (imax : Int) (s : Flow D) (e_id : Nat) : Er (qC imax s e_id) (q imax s e_id) := by
  unfold qC q
  refine .bind' fun e => .bind' fun si => .bind' fun sj => .bind' fun num => .bind' fun denom => .bind' fun c => .bind' fun t => .bind' fun t1 =>
    .bind' fun f => ?_
  split
  · exact .ok _ _
  · split
    · exact .ok _ _
    · exact .bind' fun b => .bind' fun a => .ok _ _

theorem pushEdgeC_er (imax : Int) (s : Flow D) (e_id : Nat) : Er (pushEdgeC imax s e_id) (pushEdge imax s e_id) := by
  unfold pushEdgeC pushEdge
  refine .bind' fun e => (qC_er _ _ _).bind fun v x => ?_
  dsimp only
  split
  · exact .bind' fun bi => .bind' fun im => .bind' fun bj => .bind' fun im => .count _
  · exact .ok _ _

theorem pushAllC_er (imax : Int) (s : Flow D) : Er (pushAllAdmissibleEdgeC imax s) (pushAllAdmissibleEdge imax s) := by
  unfold pushAllAdmissibleEdgeC pushAllAdmissibleEdge
  refine (forRange_er (body' := pushEdge imax) (fun cs i => (pushEdgeC_er imax cs.2 i).recount _) _ _ ((0 : Cost), s)).bind fun c s => ?_
  exact .count _

theorem linkC_er (imax : Int) (fuel : Nat) (s : Flow D) (p : Nat) : Er (linkC imax fuel s p) (link imax fuel s p) := by
  unfold linkC link
  refine .bind' fun g => .bind' fun k => .bind' fun e_id => .bind' fun e => .bind' fun fa => (qC_er _ _ _).bind fun v0 v => ?_
  exact (LCT.setValC_er _ _ _ _).bind fun k1 h => (LCT.setFaC_er _ _ _ _).bind fun k2 h => .ok _ _

theorem cutC_er (imax : Int) (fuel : Nat) (s : Flow D) (p : Nat) : Er (cutC imax fuel s p) (cut imax fuel s p) := by
  unfold cutC cut
  refine .bind' fun fa => (LCT.cutC_er _ _ _).bind fun k1 h => .bind' fun g => .bind' fun k => .bind' fun e_id => (qC_er _ _ _).bind fun v0 v => ?_
  exact (LCT.getValC_er _ _ _).bind fun k2 w => .count _

theorem sendPushC_er (fuel : Nat) (s : Flow D) (p root : Nat) (x : D) : Er (sendPushC fuel s p root x) (sendPush fuel s p root x) := by
  unfold sendPushC sendPush
  exact (LCT.addValWayToRootC_er _ _ _ _).bind fun k h => .bind' fun _ => .bind' fun _ => .bind' fun _ => .bind' fun _ => .count _

theorem sendLoopC_er (imax : Int) (fuel0 p : Nat) : ∀ (fuel : Nat) (s : Flow D) (root : Nat),
    Er (sendLoopC imax fuel0 p fuel s root) (sendLoop imax fuel0 p fuel s root) := by
  intro fuel
  induction fuel with
  | zero => intro s root; exact .error _
  | succ fuel ih =>
    intro s root
    unfold sendLoopC sendLoop
    split
    · refine (LCT.getMinC_er _ _ _).bind2 fun k w a => .bind' fun bp => ?_
      split
      · exact (sendPushC_er _ _ _ _ _).recount _
      · refine (sendPushC_er _ _ _ _ _).bind fun c1 s => .bind' fun root => (cutC_er _ _ _ _).bind fun c2 s => ?_
        exact (ih _ _).recount _
    · exact .ok _ _

theorem sendC_er (imax : Int) (fuel : Nat) (s : Flow D) (p : Nat) : Er (sendC imax fuel s p) (send imax fuel s p) := by
  unfold sendC send
  exact (LCT.findRootC_er _ _ _).bind2 fun k w a => (sendLoopC_er _ _ _ _ _ _).recount _

theorem cutChildrenC_er (imax : Int) (fuel p : Nat) : ∀ (es : List Nat) (s : Flow D),
    Er (cutChildrenC imax fuel p es s) (cutChildren imax fuel p es s) := by
  intro es
  induction es with
  | nil => intro s; exact .ok _ _
  | cons e es ih =>
    intro s
    unfold cutChildrenC cutChildren
    refine .bind' fun e => .bind' fun f => ?_
    split
    · exact (cutC_er _ _ _ _).bind fun c1 s => (ih s).recount _
    · exact (ih s).recount _

theorem updateScalingC_er (imax : Int) (fuel : Nat) (s : Flow D) (p : Nat) :
    Er (updateScalingC imax fuel s p) (updateScaling imax fuel s p) := by
  unfold updateScalingC updateScaling
  exact .bind' fun g => (cutChildrenC_er _ _ _ _ _).bind fun c s => .bind' fun _ => .bind' fun _ => .bind' fun _ => .bind' fun _ => .ok _ _

theorem choiceLoopC_er (imax : Int) (fuel0 p : Nat) : ∀ (fuel : Nat) (s : Flow D),
    Er (choiceLoopC imax fuel0 p fuel s) (choiceLoop imax fuel0 p fuel s) := by
  intro fuel
  induction fuel with
  | zero => intro s; exact .error _
  | succ fuel ih =>
    intro s
    unfold choiceLoopC choiceLoop
    refine .bind' fun k => .bind' fun g => ?_
    split
    · refine .bind' fun e_id => (qC_er _ _ _).bind fun v x => ?_
      dsimp only
      split
      · exact (linkC_er _ _ _ _).bind fun c1 s => (sendC_er _ _ _ _).recount _
      · exact .bind' fun ce => (ih _).recount _
    · exact updateScalingC_er _ _ _ _

theorem refineStepC_er (imax : Int) (fuel : Nat) (s : Flow D) : Er (refineStepC imax fuel s) (refineStep imax fuel s) := by
  unfold refineStepC refineStep choiceOperator
  refine .bind' fun p => (choiceLoopC_er _ _ _ _ _).bind fun c s => .bind' fun p => .bind' fun b => ?_
  split
  · exact .bind' fun uq => .ok _ _
  · exact .ok _ _

theorem cutIfLinkedC_er (imax : Int) (fuel : Nat) (s : Flow D) (i : Nat) : Er (cutIfLinkedC imax fuel s i) (cutIfLinked imax fuel s i) := by
  unfold cutIfLinkedC cutIfLinked
  refine .bind' fun f => ?_
  split
  · exact (cutC_er _ _ _ _).recount _
  · exact .ok _ _

theorem refineC_er (imax : Int) (fuel : Nat) (s : Flow D) : Er (refineC imax fuel s) (refine imax fuel s) := by
  unfold refineC refine
  refine (whileLoop_er (cond' := fun s : Flow D => .ok (!s.uq.empty)) (body' := refineStep imax fuel) (fun _ => rfl)
    (fun cs => (refineStepC_er imax fuel cs.2).recount _) fuel ((0 : Cost), s)).bind fun c s => ?_
  exact forRange_er (body' := cutIfLinked imax fuel) (fun cs i => (cutIfLinkedC_er imax fuel cs.2 i).recount _) _ _ _

theorem phaseC_er (imax : Int) (fuel : Nat) (s : Flow D) : Er (phaseC imax fuel s) (phase imax fuel s) := by
  unfold phaseC phase
  exact (pushAllC_er _ _).bind fun c1 s => (refineC_er _ _ _).bind fun c s => .ok _ _

theorem phasesC_er (imax : Int) (fuel : Nat) (s : Flow D) : Er (phasesC imax fuel s) (phases imax fuel s) :=
  whileLoop_er (cond' := fun s : Flow D => .ok (decide (s.epsilon ≥ 2))) (body' := phase imax fuel) (fun _ => rfl) (fun cs => (phaseC_er imax fuel cs.2).recount _) fuel ((0 : Cost), s)

end Flow
end AHO
