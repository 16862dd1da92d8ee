import Verif.Model.SolverCost
import Verif.Proof.FlowCost
/-!
# Without the counters, the counting functions are those of `ProblemSolver`
-/

namespace AHO
set_option linter.unusedSectionVars false

theorem partitionPointC_er (imax : Int) (pred : Int → Res Bool) : ∀ (fuel : Nat) (l r : Int),
    Er (partitionPointC imax pred fuel l r) (partitionPoint imax pred fuel l r) := by
  intro fuel
  induction fuel with
  | zero => intro l r; exact .error _
  | succ fuel ih =>
    intro l r
    unfold partitionPointC partitionPoint
    split
    · refine .bind' fun d => .bind' fun mid => .bind' fun b => ?_
      split
      · exact .bind' fun l' => (ih _ _).recount (· + 1)
      · exact (ih _ _).recount (· + 1)
    · exact .ok _ _

section
variable {D : Type} [LT D] [DecidableLT D]

theorem preProcessingC_er (imax : Int) (fuel : Nat) (e : OmegaLimit D) : Er (e.preProcessingC imax fuel) (e.preProcessing imax fuel) :=
  (partitionPointC_er _ _ _ _ _).bind fun _ _ => .ok _ _

theorem minimumC_er (imax : Int) (fuel : Nat) (e : OmegaLimit D) : Er (e.minimumC imax fuel) (e.minimum imax fuel) :=
  (partitionPointC_er _ _ _ _ _).bind fun _ _ => .count _

end

namespace Flow
variable {D : Type} [Zero D] [One D] [Add D] [Sub D] [Neg D] [BEq D] [LT D] [LE D] [DecidableLT D] [DecidableLE D]

theorem epsilonLoopC_er (imax : Int) (n : Nat) (U : Int) (fuel : Nat) (eps : Int) :
    Er (epsilonLoopC imax n U fuel eps) (epsilonLoop imax n U fuel eps) := by
  unfold epsilonLoopC epsilonLoop
  refine whileLoop_er (cond' := fun eps : Int => do
      let n1 ← toInt imax (n + 1)
      let a ← ck imax (2 * n1)
      let b ← ck imax (a * U)
      .ok (decide (eps < b))) (fun _ => rfl) (fun ke => ?_) fuel ((0 : Nat), eps)
  refine .bind' fun e => ?_
  split
  · exact .ok _ _
  · exact .error _

theorem mkC_er (imax : Int) (fuel : Nat) (n : Nat) (M : D) (U : Int) (limits : List (OmegaLimit D)) :
    Er (mkC imax fuel n M U limits) (mk' imax fuel n M U limits) := by
  unfold mkC mk'
  refine (epsilonLoopC_er _ _ _ _ _).bind fun k eps => .bind' fun n1 => ?_
  dsimp only
  split
  · split
    · exact .bind' fun E => .bind' fun G => .ok _ _
    · exact .error _
  · exact .error _

variable [Mul D] [Div D] [IntCast D]

theorem addEdgeMinC_er (imax : Int) (fuel : Nat) (as : D × Flow D) (e_id : Nat) :
    Er (addEdgeMinC imax fuel as e_id) (addEdgeMin imax fuel as e_id) := by
  unfold addEdgeMinC addEdgeMin
  exact .bind' fun e => .bind' fun x => .bind' fun E => (minimumC_er _ _ _).bind fun c m => .ok _ _

theorem minCostC_er (imax : Int) (fuel : Nat) (s : Flow D) : Er (minCostC imax fuel s) (minCost imax fuel s) := by
  unfold minCostC minCost
  refine (phasesC_er _ _ _).bind fun c1 s => ?_
  exact (forRange_er (body' := addEdgeMin imax fuel) (fun cas i => (addEdgeMinC_er imax fuel cas.2 i).recount _) _ _ ((0 : Cost), 0, s)).bind
    fun c as => .ok _ _

end Flow

namespace ProblemSolver
variable {D : Type}

theorem checkMusC_er (Mus : List (MuLimit D)) : ∀ (cnt i : Nat), Er (checkMusC Mus i cnt) (checkMus Mus i cnt) := by
  intro cnt
  induction cnt with
  | zero => intro i; exact .ok _ _
  | succ cnt ih =>
    intro i
    unfold checkMusC checkMus
    refine .bind' fun m => ?_
    split
    · exact (ih _).recount (· + 1)
    · exact .ok _ _

section
variable [LT D] [DecidableLT D]

theorem processOmegasC_er (imax : Int) (fuel n : Nat) (Mus : List (MuLimit D)) : ∀ Omegas : List (OmegaLimit D),
    Er (processOmegasC imax fuel n Mus Omegas) (processOmegas imax fuel n Mus Omegas) := by
  intro Omegas
  induction Omegas with
  | nil => exact .ok _ _
  | cons it rest ih =>
    unfold processOmegasC processOmegas
    split
    · exact .ok _ _
    split
    · exact .ok _ _
    split
    · exact .ok _ _
    split
    · exact .ok _ _
    refine (preProcessingC_er _ _ _).bind fun c1 it => .bind' fun mi => .bind' fun mj => .bind' fun l' => ?_
    dsimp only
    split
    · exact .ok _ _
    · exact ih.bind fun c2 r => .ok _ _

theorem mkC_er (imax : Int) (fuel n : Nat) (Mus : List (MuLimit D)) (Omegas : List (OmegaLimit D)) :
    Er (mkC imax fuel n Mus Omegas) (mk' imax fuel n Mus Omegas) := by
  unfold mkC mk'
  split
  · exact .ok _ _
  · refine (checkMusC_er _ _ _).bind fun k ok => ?_
    dsimp only
    split
    · exact .ok _ _
    · refine (processOmegasC_er _ _ _ _ _).bind fun c r => ?_
      cases r <;> exact .ok _ _

end

theorem mergeLoopC_er [Add D] (imax : Int) : ∀ (Os : List (OmegaLimit D)) (mp : LimitMap D), Er (mergeLoopC imax Os mp) (mergeLoop imax Os mp) := by
  intro Os
  induction Os with
  | nil => intro mp; exact .ok _ _
  | cons it rest ih =>
    intro mp
    unfold mergeLoopC mergeLoop
    have key : ∀ it : OmegaLimit D, Er
        (match mapFind mp (it.i, it.j) with
        | some v => do
          let (v', err) ← v.merge it
          if err then .ok (1, none)
          else do
            let (k, r) ← mergeLoopC imax rest (mapSet mp (it.i, it.j) v')
            .ok (k + 1, r)
        | none => do
          let (k, r) ← mergeLoopC imax rest (mapSet mp (it.i, it.j) it)
          .ok (k + 1, r))
        (match mapFind mp (it.i, it.j) with
        | some v => do
          let (v', err) ← v.merge it
          if err then .ok none
          else mergeLoop imax rest (mapSet mp (it.i, it.j) v')
        | none => mergeLoop imax rest (mapSet mp (it.i, it.j) it)) := by
      intro it
      split
      · refine .bind' fun ve => ?_
        dsimp only
        split
        · exact .ok _ _
        · exact (ih _).recount (· + 1)
      · exact (ih _).recount (· + 1)
    split
    · exact .bind' key
    · exact .bind' key

theorem mergeLimitsC_er [Add D] (imax : Int) (s : ProblemSolver D) : Er (mergeLimitsC imax s) (mergeLimits imax s) := by
  unfold mergeLimitsC mergeLimits
  refine (mergeLoopC_er _ _ _).bind fun k r => ?_
  cases r with
  | none => exact .ok _ _
  | some mp => exact .bind' fun mus => .ok _ _

section
variable [Zero D] [One D] [Add D] [Sub D] [LT D] [DecidableLT D]

theorem calcLoopC_er (imax : Int) (fuel : Nat) : ∀ (limits : List (OmegaLimit D)) (a : D × D × Int),
    Er (calcLoopC imax fuel limits a) (calcLoop imax fuel limits a) := by
  intro limits
  induction limits with
  | nil => intro a; exact .ok _ _
  | cons it rest ih =>
    rintro ⟨vcm, M, U⟩
    unfold calcLoopC calcLoop
    exact .bind' fun a => .bind' fun b => (minimumC_er _ _ _).bind fun c1 m => .bind' fun w => (ih _).recount _

end

section
variable [Zero D] [One D] [Add D] [Sub D] [Neg D] [Mul D] [Div D] [IntCast D]
  [LT D] [LE D] [DecidableLT D] [DecidableLE D] [BEq D]

theorem solveC_er (imax : Int) (fuel : Nat) (s : ProblemSolver D) : Er (solveC imax fuel s) (solve imax fuel s) := by
  unfold solveC solve
  split
  · exact .ok _ _
  · refine (mergeLimitsC_er _ _).bind fun c1 r => ?_
    cases r with
    | none => exact .ok _ _
    | some limits =>
      refine (calcLoopC_er _ _ _ _).bind fun c2 a => (Flow.mkC_er _ _ _ _ _ _).bind fun c3 flow => (Flow.minCostC_er _ _ _).bind fun c4 m => ?_
      dsimp only
      split <;> exact .ok _ _

theorem runC_er (imax : Int) (fuel n : Nat) (Mus : List (MuLimit D)) (Omegas : List (OmegaLimit D)) :
    Er (runC imax fuel n Mus Omegas) (run imax fuel n Mus Omegas) := by
  unfold runC run
  exact (mkC_er _ _ _ _ _).bind fun c1 s => (solveC_er _ _ _).recount _

end
end ProblemSolver
end AHO
