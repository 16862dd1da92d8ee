import Verif.Model.Solver
import Verif.Proof.Basic
import Verif.Link
/-!
# More fuel does not change a result

`Le x y`: the execution `x` ran out of fuel, or it ended like `y`.
-/

namespace AHO
set_option linter.unusedSectionVars false

def Le {α : Type} (x y : Res α) : Prop := x = .error .fuel ∨ x = y

theorem Le.refl {α : Type} (x : Res α) : Le x x := .inr rfl

theorem Le.fuel {α : Type} (y : Res α) : Le (.error .fuel) y := .inl rfl

theorem Le.bind {α β : Type} {x y : Res α} {f g : α → Res β} (h : Le x y) (h' : ∀ a, Le (f a) (g a)) :
    Le (x >>= f) (y >>= g) := by
  rcases h with rfl | rfl
  · exact .inl rfl
  · cases x with
    | error e => exact .inr rfl
    | ok a => exact h' a

theorem Le.ite {α : Type} {c : Prop} [Decidable c] {a b a' b' : Res α} (h1 : Le a a') (h2 : Le b b') :
    Le (if c then a else b) (if c then a' else b') := by
  split
  · exact h1
  · exact h2

theorem Le.whileLoop {σ : Type} {c c' : σ → Res Bool} {b b' : σ → Res σ} (hc : ∀ s, Le (c s) (c' s))
    (hb : ∀ s, Le (b s) (b' s)) : ∀ {f f' : Nat} (_ : f ≤ f') (s : σ), Le (whileLoop c b f s) (whileLoop c' b' f' s) := by
  intro f
  induction f with
  | zero => intro f' _ s; exact .inl rfl
  | succ f ih =>
    intro f' h s
    obtain ⟨f', rfl⟩ : ∃ m, f' = m + 1 := ⟨f' - 1, by omega⟩
    unfold AHO.whileLoop
    refine (hc s).bind fun x => Le.ite ((hb s).bind fun t => ih (by omega) t) (.refl _)

theorem Le.forRange {σ : Type} {b b' : σ → Nat → Res σ} (hb : ∀ s i, Le (b s i) (b' s i)) :
    ∀ (cnt lo : Nat) (s : σ), Le (forRange b lo cnt s) (forRange b' lo cnt s) := by
  intro cnt
  induction cnt with
  | zero => intro lo s; exact .refl _
  | succ cnt ih =>
    intro lo s
    unfold AHO.forRange
    exact (hb s lo).bind fun t => ih (lo + 1) t

theorem returns_of {α : Type} {f : Nat → Res α} {r : α} (N : Nat) (h : ∀ fuel, N ≤ fuel → f fuel = .ok r)
    (hm : ∀ a b, a ≤ b → Le (f a) (f b)) : Returns f r := by
  refine ⟨⟨N, h⟩, fun fuel => ?_⟩
  rcases hm fuel (max fuel N) (by omega) with h' | h'
  · exact .inr h'
  · left; rw [h', h _ (by omega)]

/-- one run that ends normally is enough -/
theorem returns_of_eval {α : Type} {f : Nat → Res α} {r : α} (N : Nat) (h : f N = .ok r)
    (hm : ∀ a b, a ≤ b → Le (f a) (f b)) : Returns f r :=
  returns_of N (fun fuel hf => by
    rcases hm N fuel hf with h' | h'
    · rw [h] at h'; cases h'
    · rw [← h', h]) hm

theorem Returns.unique {α : Type} {f : Nat → Res α} {r r' : α} (h : Returns f r) (h' : Returns f r') : r = r' := by
  obtain ⟨⟨N, h⟩, -⟩ := h
  obtain ⟨⟨N', h'⟩, -⟩ := h'
  have e1 := h (max N N') (by omega)
  have e2 := h' (max N N') (by omega)
  rw [e1] at e2
  exact Except.ok.inj e2

theorem Returns.value {α : Type} {f : Nat → Res α} {r v : α} (h : Returns f r) (fuel : Nat) (e : f fuel = .ok v) : r = v := by
  rcases h.2 fuel with h | h <;> rw [e] at h <;> cases h
  rfl

variable {D : Type}

/-- walks through a `do` block -/
macro "walk" : tactic => `(tactic| repeat' (first
  | (with_reducible exact Le.refl _)
  | (with_reducible assumption)
  | (with_reducible apply Le.ite)
  | (with_reducible apply Le.bind)
  | (intro _)
  | split))

section
variable [LT D] [DecidableLT D]

theorem partitionPoint_le {imax : Int} {pred : Int → Res Bool} : ∀ {f f' : Nat} (_ : f ≤ f') (l r : Int),
    Le (partitionPoint imax pred f l r) (partitionPoint imax pred f' l r) := by
  intro f
  induction f with
  | zero => intro f' _ l r; exact .inl rfl
  | succ f ih =>
    intro f' h l r
    obtain ⟨f', rfl⟩ : ∃ m, f' = m + 1 := ⟨f' - 1, by omega⟩
    have ih' := fun l r => ih (show f ≤ f' by omega) l r
    unfold partitionPoint
    walk
    all_goals first | exact ih' _ _

theorem preProcessing_le {imax : Int} {f f' : Nat} (h : f ≤ f') (e : OmegaLimit D) :
    Le (e.preProcessing imax f) (e.preProcessing imax f') := by
  unfold OmegaLimit.preProcessing
  exact (partitionPoint_le h _ _).bind fun _ => .refl _

theorem minimum_le {imax : Int} {f f' : Nat} (h : f ≤ f') (e : OmegaLimit D) :
    Le (e.minimum imax f) (e.minimum imax f') := by
  unfold OmegaLimit.minimum
  exact (partitionPoint_le h _ _).bind fun _ => .refl _

end

namespace LCT
variable [Add D] [Zero D] [BEq D] [LT D] [LE D] [DecidableLT D] [DecidableLE D]

theorem pushDownFromRoot_le : ∀ {f f' : Nat} (_ : f ≤ f') (h : Heap D) (x : Nat),
    Le (pushDownFromRoot f h x) (pushDownFromRoot f' h x) := by
  intro f
  induction f with
  | zero => intro f' _ h x; exact .inl rfl
  | succ f ih =>
    intro f' hf h x
    obtain ⟨f', rfl⟩ : ∃ m, f' = m + 1 := ⟨f' - 1, by omega⟩
    have ih' := fun h x => ih (show f ≤ f' by omega) h x
    unfold pushDownFromRoot
    walk
    all_goals first | exact ih' _ _

theorem splay_le {f f' : Nat} (hf : f ≤ f') (h : Heap D) (x : Nat) : Le (splay f h x) (splay f' h x) := by
  unfold splay
  refine (pushDownFromRoot_le hf _ _).bind fun _ => Le.bind ?_ fun _ => .refl _
  exact Le.whileLoop (fun _ => .refl _) (fun _ => .refl _) hf _

theorem accessLoop_le {f0 f0' : Nat} (h0 : f0 ≤ f0') : ∀ {f f' : Nat} (_ : f ≤ f') (h : Heap D) (p q : Option Nat),
    Le (accessLoop f0 f h p q) (accessLoop f0' f' h p q) := by
  intro f
  induction f with
  | zero => intro f' _ h p q; exact .inl rfl
  | succ f ih =>
    intro f' hf h p q
    obtain ⟨f', rfl⟩ : ∃ m, f' = m + 1 := ⟨f' - 1, by omega⟩
    have ih' := fun h p q => ih (show f ≤ f' by omega) h p q
    unfold accessLoop
    cases p with
    | none => exact .refl _
    | some p =>
      refine (splay_le h0 _ _).bind fun _ => ?_
      walk
      all_goals first | exact ih' _ _ _

theorem access_le {f f' : Nat} (hf : f ≤ f') (h : Heap D) (x : Nat) : Le (access f h x) (access f' h x) := by
  unfold access
  exact (accessLoop_le hf hf _ _ _).bind fun _ => splay_le hf _ _

theorem leftmost_le (h : Heap D) : ∀ {f f' : Nat} (_ : f ≤ f') (x : Nat), Le (leftmost h f x) (leftmost h f' x) := by
  intro f
  induction f with
  | zero => intro f' _ x; exact .inl rfl
  | succ f ih =>
    intro f' hf x
    obtain ⟨f', rfl⟩ : ∃ m, f' = m + 1 := ⟨f' - 1, by omega⟩
    unfold leftmost
    refine (Le.refl _).bind fun n => ?_
    cases n.ch0 with
    | none => exact .refl _
    | some c => exact ih (by omega) c

theorem findRoot_le {f f' : Nat} (hf : f ≤ f') (h : Heap D) (x : Nat) : Le (findRoot f h x) (findRoot f' h x) := by
  unfold findRoot
  exact (access_le hf _ _).bind fun _ => (leftmost_le _ hf _).bind fun _ => .refl _

theorem setFa_le {f f' : Nat} (hf : f ≤ f') (h : Heap D) (x y : Nat) : Le (setFa f h x y) (setFa f' h x y) := by
  unfold setFa
  exact (splay_le hf _ _).bind fun _ => .refl _

theorem cut_le {f f' : Nat} (hf : f ≤ f') (h : Heap D) (x : Nat) : Le (cut f h x) (cut f' h x) := by
  unfold cut
  exact (access_le hf _ _).bind fun _ => .refl _

theorem getVal_le {f f' : Nat} (hf : f ≤ f') (h : Heap D) (x : Nat) : Le (getVal f h x) (getVal f' h x) := by
  unfold getVal
  walk
  all_goals exact access_le hf _ _

theorem getMinLoop_le : ∀ {f f' : Nat} (_ : f ≤ f') (h : Heap D) (x : Nat) (r : D × Option Nat),
    Le (getMinLoop f h x r) (getMinLoop f' h x r) := by
  intro f
  induction f with
  | zero => intro f' _ h x r; exact .inl rfl
  | succ f ih =>
    intro f' hf h x r
    obtain ⟨f', rfl⟩ : ∃ m, f' = m + 1 := ⟨f' - 1, by omega⟩
    have ih' := fun h x r => ih (show f ≤ f' by omega) h x r
    unfold getMinLoop
    walk
    all_goals first | exact ih' _ _ _

theorem getMin_le {f f' : Nat} (hf : f ≤ f') (h : Heap D) (x : Nat) : Le (getMin f h x) (getMin f' h x) := by
  unfold getMin
  exact (access_le hf _ _).bind fun _ => (Le.refl _).bind fun _ => getMinLoop_le hf _ _ _

theorem setVal_le {f f' : Nat} (hf : f ≤ f') (h : Heap D) (x : Nat) (v : D) : Le (setVal f h x v) (setVal f' h x v) := by
  unfold setVal
  walk
  all_goals exact access_le hf _ _

theorem addVal_le {f f' : Nat} (hf : f ≤ f') (h : Heap D) (x : Nat) (v : D) :
    Le (addValWayToRoot f h x v) (addValWayToRoot f' h x v) := by
  unfold addValWayToRoot
  exact (access_le hf _ _).bind fun _ => .refl _

end LCT

namespace Flow
variable [Zero D] [Add D] [Sub D] [Neg D] [LT D] [LE D] [DecidableLT D] [DecidableLE D] [BEq D]
variable {imax : Int} {f f' : Nat} (hf : f ≤ f')
include hf

theorem link_le (s : Flow D) (p : Nat) : Le (link imax f s p) (link imax f' s p) := by
  unfold link
  walk
  · exact LCT.setVal_le hf _ _ _
  · exact LCT.setFa_le hf _ _ _

theorem cut_le (s : Flow D) (p : Nat) : Le (cut imax f s p) (cut imax f' s p) := by
  unfold cut
  walk
  · exact LCT.cut_le hf _ _
  · exact LCT.getVal_le hf _ _

theorem sendPush_le (s : Flow D) (p r : Nat) (x : D) : Le (sendPush f s p r x) (sendPush f' s p r x) := by
  unfold sendPush
  exact (LCT.addVal_le hf _ _ _).bind fun _ => .refl _

omit hf in
theorem sendLoop_le {f0 f0' : Nat} (h0 : f0 ≤ f0') (p : Nat) : ∀ {f f' : Nat} (_ : f ≤ f') (s : Flow D) (r : Nat),
    Le (sendLoop imax f0 p f s r) (sendLoop imax f0' p f' s r) := by
  intro f
  induction f with
  | zero => intro f' _ s r; exact .inl rfl
  | succ f ih =>
    intro f' hf s r
    obtain ⟨f', rfl⟩ : ∃ m, f' = m + 1 := ⟨f' - 1, by omega⟩
    have ih' := fun s r => ih (show f ≤ f' by omega) s r
    unfold sendLoop
    walk
    all_goals first
      | exact ih' _ _
      | exact LCT.getMin_le h0 _ _
      | exact sendPush_le h0 _ _ _ _
      | exact cut_le h0 _ _

theorem send_le (s : Flow D) (p : Nat) : Le (send imax f s p) (send imax f' s p) := by
  unfold send
  exact (LCT.findRoot_le hf _ _).bind fun _ => sendLoop_le hf _ hf _ _

theorem cutChildren_le (p : Nat) : ∀ (es : List Nat) (s : Flow D),
    Le (cutChildren imax f p es s) (cutChildren imax f' p es s) := by
  intro es
  induction es with
  | nil => intro s; exact .refl _
  | cons e es ih =>
    intro s
    unfold cutChildren
    walk
    all_goals first
      | exact ih _
      | exact cut_le hf _ _

theorem updateScaling_le (s : Flow D) (p : Nat) : Le (updateScaling imax f s p) (updateScaling imax f' s p) := by
  unfold updateScaling
  walk
  exact cutChildren_le hf _ _ _

omit hf in
theorem choiceLoop_le {f0 f0' : Nat} (h0 : f0 ≤ f0') (p : Nat) : ∀ {f f' : Nat} (_ : f ≤ f') (s : Flow D),
    Le (choiceLoop imax f0 p f s) (choiceLoop imax f0' p f' s) := by
  intro f
  induction f with
  | zero => intro f' _ s; exact .inl rfl
  | succ f ih =>
    intro f' hf s
    obtain ⟨f', rfl⟩ : ∃ m, f' = m + 1 := ⟨f' - 1, by omega⟩
    have ih' := fun s => ih (show f ≤ f' by omega) s
    unfold choiceLoop
    walk
    all_goals first
      | exact ih' _
      | exact link_le h0 _ _
      | exact send_le h0 _ _
      | exact updateScaling_le h0 _ _

theorem refineStep_le (s : Flow D) : Le (refineStep imax f s) (refineStep imax f' s) := by
  unfold refineStep choiceOperator
  walk
  exact choiceLoop_le hf _ hf _

theorem refine_le (s : Flow D) : Le (refine imax f s) (refine imax f' s) := by
  unfold refine
  refine Le.bind (Le.whileLoop (fun _ => .refl _) (refineStep_le hf) hf _) fun _ => Le.forRange (fun s i => ?_) _ _ _
  unfold cutIfLinked
  walk
  exact cut_le hf _ _

theorem phase_le (s : Flow D) : Le (phase imax f s) (phase imax f' s) := by
  unfold phase
  walk
  exact refine_le hf _

theorem phases_le (s : Flow D) : Le (phases imax f s) (phases imax f' s) :=
  Le.whileLoop (fun _ => .refl _) (phase_le hf) hf _

theorem mk'_le (n : Nat) (M : D) (U : Int) (limits : List (OmegaLimit D)) :
    Le (mk' imax f n M U limits) (mk' imax f' n M U limits) := by
  unfold mk' epsilonLoop
  exact (Le.whileLoop (fun _ => .refl _) (fun _ => .refl _) hf _).bind fun _ => .refl _

theorem minCost_le [Mul D] [Div D] [IntCast D] (s : Flow D) : Le (minCost imax f s) (minCost imax f' s) := by
  unfold minCost
  refine (phases_le hf s).bind fun _ => (Le.forRange (fun s i => ?_) _ _ _).bind fun _ => .refl _
  unfold addEdgeMin
  walk
  exact minimum_le hf _

end Flow

namespace ProblemSolver
variable {imax : Int} {f f' : Nat} (hf : f ≤ f')
include hf

theorem processOmegas_le [LT D] [DecidableLT D] (n : Nat) (Mus : List (MuLimit D)) : ∀ (Os : List (OmegaLimit D)),
    Le (processOmegas imax f n Mus Os) (processOmegas imax f' n Mus Os) := by
  intro Os
  induction Os with
  | nil => exact .refl _
  | cons e Os ih =>
    unfold processOmegas
    walk
    exact preProcessing_le hf _

theorem ctor_le [LT D] [DecidableLT D] (n : Nat) (Mus : List (MuLimit D)) (Os : List (OmegaLimit D)) :
    Le (mk' imax f n Mus Os) (mk' imax f' n Mus Os) := by
  unfold mk'
  walk
  exact processOmegas_le hf _ _ _

variable [Zero D] [One D] [Add D] [Sub D] [Neg D] [Mul D] [Div D] [IntCast D]
  [LT D] [LE D] [DecidableLT D] [DecidableLE D] [BEq D]

theorem calcLoop_le : ∀ (ls : List (OmegaLimit D)) (a : D × D × Int), Le (calcLoop imax f ls a) (calcLoop imax f' ls a) := by
  intro ls
  induction ls with
  | nil => intro a; exact .refl _
  | cons e ls ih =>
    intro a
    unfold calcLoop
    walk
    · exact minimum_le hf _
    · exact ih _

theorem solve_le (s : ProblemSolver D) : Le (solve imax f s) (solve imax f' s) := by
  unfold solve calc'
  walk
  all_goals first
    | exact calcLoop_le hf _ _
    | exact Flow.mk'_le hf _ _ _ _
    | exact Flow.minCost_le hf _

theorem run_le (n : Nat) (Mus : List (MuLimit D)) (Os : List (OmegaLimit D)) :
    Le (run imax f n Mus Os) (run imax f' n Mus Os) := by
  unfold run
  exact (ctor_le hf _ _ _).bind fun _ => solve_le hf _

end ProblemSolver
end AHO
