import Verif.Model.LCTCost
import Verif.Proof.Basic
/-!
# Without the counters, the counting functions are the functions of the model
-/

namespace AHO

/-- `y` is `x` without the counter -/
def Er {γ α : Type} (x : Res (γ × α)) (y : Res α) : Prop := x.map Prod.snd = y

theorem Er.bind {γ δ α β : Type} {x : Res (γ × α)} {y : Res α} {f : γ × α → Res (δ × β)} {g : α → Res β}
    (h : Er x y) (hf : ∀ k a, Er (f (k, a)) (g a)) : Er (x >>= f) (y >>= g) := by
  cases x with
  | error e => cases h; rfl
  | ok a =>
    cases h
    exact hf a.1 a.2

theorem Er.bind' {δ α β : Type} {x : Res α} {f : α → Res (δ × β)} {g : α → Res β}
    (hf : ∀ a, Er (f a) (g a)) : Er (x >>= f) (x >>= g) := by
  cases x with
  | error e => rfl
  | ok a => exact hf a

theorem Er.ok {γ α : Type} (k : γ) (a : α) : Er (.ok (k, a)) (.ok a) := rfl

theorem Er.error {γ α : Type} (e : Err) : Er (.error e : Res (γ × α)) (.error e) := rfl

theorem Er.count {γ α : Type} {x : Res α} (k : γ) : Er (x >>= fun a => .ok (k, a)) x := by
  cases x <;> rfl

/-- change of the counter -/
theorem Er.recount {γ δ α : Type} {x : Res (γ × α)} {y : Res α} (h : Er x y) (f : γ → δ) :
    Er (x >>= fun s => .ok (f s.1, s.2)) y := by
  cases x with
  | error e => cases h; rfl
  | ok a => cases h; rfl

theorem Er.of_ok {γ α : Type} {x : Res (γ × α)} {y : Res α} (h : Er x y) {a : α} (hy : y = .ok a) :
    ∃ k, x = .ok (k, a) := by
  cases x with
  | error e => cases h; cases hy
  | ok b =>
    cases h
    cases hy
    exact ⟨b.1, rfl⟩

theorem Er.to_ok {γ α : Type} {x : Res (γ × α)} {y : Res α} (h : Er x y) {k : γ} {a : α} (hx : x = .ok (k, a)) :
    y = .ok a := by
  subst hx
  exact h.symm

namespace LCT
set_option linter.unusedSectionVars false
variable {D : Type} [Add D] [Zero D] [BEq D] [LT D] [LE D] [DecidableLT D] [DecidableLE D]

theorem pushDownFromRootC_er : ∀ (fuel : Nat) (h : Heap D) (x : Nat),
    Er (pushDownFromRootC fuel h x) (pushDownFromRoot fuel h x) := by
  intro fuel
  induction fuel with
  | zero => intro h x; rfl
  | succ fuel ih =>
    intro h x
    unfold pushDownFromRootC pushDownFromRoot
    refine .bind' fun r => ?_
    cases r with
    | true => exact .count _
    | false => exact .bind' fun n => .bind' fun f => .bind (ih h f) fun k h => .count _

theorem splayStepC_er (h : Heap D) (x : Nat) : Er (splayStepC h x) (splayStep h x) := by
  unfold splayStepC splayStep
  refine .bind' fun n => .bind' fun f => .bind' fun fr => ?_
  cases fr with
  | true => exact .count _
  | false =>
    refine .bind' fun dx => .bind' fun df => ?_
    by_cases hd : dx = df
    · simp only [hd, Bool.not_false, if_true]
      exact .bind' fun h => .count _
    · simp only [hd, Bool.not_false, if_true, if_false]
      exact .bind' fun h => .count _

theorem whileLoopC_er {x : Nat} : ∀ (fuel : Nat) (s : Nat × Heap D),
    Er (whileLoop (fun s : Nat × Heap D => do let r ← isRoot s.2 x; .ok (!r))
      (fun s => do let (k, h) ← splayStepC s.2 x; .ok (s.1 + k, h)) fuel s)
      (whileLoop (fun h => do let r ← isRoot h x; .ok (!r)) (fun h => splayStep h x) fuel s.2) := by
  intro fuel
  induction fuel with
  | zero => intro s; rfl
  | succ fuel ih =>
    intro s
    unfold whileLoop
    refine .bind' fun b => ?_
    cases b with
    | false => exact .ok _ _
    | true =>
      simp only [if_true]
      exact .bind ((splayStepC_er s.2 x).recount fun k => s.1 + k) fun k h => ih (k, h)

theorem splayC_er (fuel : Nat) (h : Heap D) (x : Nat) : Er (splayC fuel h x) (splay fuel h x) := by
  unfold splayC splay
  exact .bind (pushDownFromRootC_er fuel h x) fun k h => .bind (whileLoopC_er fuel (0, h)) fun m h => .count _

theorem accessLoopC_er (fuel0 : Nat) : ∀ (fuel : Nat) (h : Heap D) (p q : Option Nat),
    Er (accessLoopC fuel0 fuel h p q) (accessLoop fuel0 fuel h p q) := by
  intro fuel
  induction fuel with
  | zero => intro h p q; rfl
  | succ fuel ih =>
    intro h p q
    cases p with
    | none => exact .ok _ _
    | some p =>
      unfold accessLoopC accessLoop
      exact .bind (splayC_er fuel0 h p) fun k h => .bind' fun h => .bind' fun h => .bind' fun n =>
        (ih h n.fa (some p)).recount fun m => k + 1 + m

theorem accessC_er (fuel : Nat) (h : Heap D) (x : Nat) : Er (accessC fuel h x) (access fuel h x) := by
  unfold accessC access
  exact .bind (accessLoopC_er fuel fuel h (some x) none) fun k h => (splayC_er fuel h x).recount fun m => k + m

theorem leftmostC_er (h : Heap D) : ∀ (fuel x : Nat), Er (leftmostC h fuel x) (leftmost h fuel x) := by
  intro fuel
  induction fuel with
  | zero => intro x; rfl
  | succ fuel ih =>
    intro x
    unfold leftmostC leftmost
    refine .bind' fun n => ?_
    cases n.ch0 with
    | none => exact .ok _ _
    | some c => exact (ih c).recount fun k => k + 1

theorem findRootC_er (fuel : Nat) (h : Heap D) (x : Nat) :
    Er ((findRootC fuel h x) >>= fun s => .ok (s.1, s.2.2)) (findRoot fuel h x) := by
  unfold findRootC findRoot
  have ha := accessC_er fuel h x
  cases hc : accessC fuel h x with
  | error e => rw [hc] at ha; rw [← show _ = access fuel h x from ha]; rfl
  | ok a =>
    rw [hc] at ha
    rw [← show _ = access fuel h x from ha]
    have hl := leftmostC_er a.2 fuel x
    simp only [Except.map, ok_bind]
    cases hm : leftmostC a.2 fuel x with
    | error e => rw [hm] at hl; rw [← show _ = leftmost a.2 fuel x from hl]; rfl
    | ok b => rw [hm] at hl; rw [← show _ = leftmost a.2 fuel x from hl]; rfl

theorem setFaC_er (fuel : Nat) (h : Heap D) (x f : Nat) : Er (setFaC fuel h x f) (setFa fuel h x f) := by
  unfold setFaC setFa
  refine .bind (splayC_er fuel h x) fun k h => .bind' fun n => ?_
  split
  · exact .count _
  · rfl

theorem cutC_er (fuel : Nat) (h : Heap D) (x : Nat) : Er (cutC fuel h x) (cut fuel h x) := by
  unfold cutC cut
  refine .bind (accessC_er fuel h x) fun k h => .bind' fun n => ?_
  cases n.ch0 with
  | none => rfl
  | some c => exact .bind' fun nc => .bind' fun h => .bind' fun n => .bind' fun h => .count _

theorem getValC_er (fuel : Nat) (h : Heap D) (x : Nat) : Er (getValC fuel h x) (getVal fuel h x) := by
  unfold getValC getVal
  refine .bind' fun r => ?_
  cases r with
  | true => exact .bind' fun n => .ok _ _
  | false => exact .bind (accessC_er fuel h x) fun k h => .bind' fun n => .ok _ _

theorem getMinLoopC_er : ∀ (fuel : Nat) (h : Heap D) (p : Nat) (ret : D × Option Nat),
    Er (getMinLoopC fuel h p ret) (getMinLoop fuel h p ret) := by
  intro fuel
  induction fuel with
  | zero => intro h p ret; rfl
  | succ fuel ih =>
    intro h p ret
    unfold getMinLoopC getMinLoop
    refine .bind' fun h => .bind' fun n => ?_
    have key : ∀ ret : D × Option Nat, Er
        (match n.ch0 with
          | none => .ok (1, ret, h)
          | some c => do
            let (k, r) ← getMinLoopC fuel h c (if n.val ≤ ret.1 then (n.val, some p) else ret)
            .ok (k + 1, r))
        (match n.ch0 with
          | none => .ok (ret, h)
          | some c => getMinLoop fuel h c (if n.val ≤ ret.1 then (n.val, some p) else ret)) := by
      intro ret
      cases n.ch0 with
      | none => exact .ok _ _
      | some c => exact (ih h c _).recount fun k => k + 1
    cases n.ch1 with
    | none => exact key _
    | some c => exact .bind' fun nc => key _

theorem getMinC_er (fuel : Nat) (h : Heap D) (x : Nat) :
    Er ((getMinC fuel h x) >>= fun s => .ok (s.1, s.2.2)) (getMin fuel h x) := by
  unfold getMinC getMin
  have ha := accessC_er fuel h x
  cases hc : accessC fuel h x with
  | error e => rw [hc] at ha; rw [← show _ = access fuel h x from ha]; rfl
  | ok a =>
    rw [hc] at ha
    rw [← show _ = access fuel h x from ha]
    simp only [Except.map, ok_bind]
    cases a.2.rd x with
    | error e => rfl
    | ok n =>
      have hl := getMinLoopC_er fuel a.2 x (n.val, some x)
      simp only [ok_bind]
      cases hm : getMinLoopC fuel a.2 x (n.val, some x) with
      | error e => rw [hm] at hl; rw [← show _ = getMinLoop fuel a.2 x (n.val, some x) from hl]; rfl
      | ok b => rw [hm] at hl; rw [← show _ = getMinLoop fuel a.2 x (n.val, some x) from hl]; rfl

theorem setValC_er (fuel : Nat) (h : Heap D) (x : Nat) (v : D) : Er (setValC fuel h x v) (setVal fuel h x v) := by
  unfold setValC setVal
  refine .bind' fun r => ?_
  cases r with
  | true => exact .bind' fun n => .bind' fun h => .count _
  | false => exact .bind (accessC_er fuel h x) fun k h => .bind' fun n => .bind' fun h => .count _

theorem addValWayToRootC_er (fuel : Nat) (h : Heap D) (x : Nat) (d : D) :
    Er (addValWayToRootC fuel h x d) (addValWayToRoot fuel h x d) := by
  unfold addValWayToRootC addValWayToRoot
  exact .bind (accessC_er fuel h x) fun k h => .count _

end LCT
end AHO
