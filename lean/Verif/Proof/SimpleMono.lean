import Verif.Proof.Mono
import Verif.Model.SimpleSolver
/-!
# More fuel changes no result of `CostScaling`, `SimpleSolver`
-/

namespace AHO
variable {D : Type} {imax : Int} {f f' : Nat}

namespace CostScaling

section
variable [Zero D] [Add D] [Sub D] [Mul D] [Div D] [IntCast D] [LT D] [DecidableLT D] [BEq D]

omit [Mul D] [Div D] [BEq D] in
theorem saturateNode_le (hf : f ≤ f') (s : Refining D) (u : Nat) : Le (saturateNode f s u) (saturateNode f' s u) :=
  (Le.refl _).bind fun _ => (Le.whileLoop (fun _ => .refl _) (fun _ => .refl _) hf _).bind fun _ => .refl _

omit [Mul D] [Div D] in
theorem discharge_le (u : Nat) : ∀ {f f' : Nat} (_ : f ≤ f') (s : Refining D), Le (discharge u f s) (discharge u f' s) := by
  intro f
  induction f with
  | zero => intro f' _ s; exact .fuel _
  | succ f ih =>
    intro f' h s
    obtain ⟨f', rfl⟩ : ∃ k, f' = k + 1 := ⟨f' - 1, by omega⟩
    unfold discharge
    refine (Le.refl _).bind fun c => ?_
    cases c with
    | none => exact .refl _
    | some i =>
      have key : ∀ s : Refining D, Le (s.excess.rd u >>= fun x => if (x == 0) = true then .ok (s, true) else
          s.edge.rd i >>= fun e => s.current_edge.wr u e.next >>= fun cur => discharge u f { s with current_edge := cur })
          (s.excess.rd u >>= fun x => if (x == 0) = true then .ok (s, true) else
          s.edge.rd i >>= fun e => s.current_edge.wr u e.next >>= fun cur => discharge u f' { s with current_edge := cur }) := fun s =>
        (Le.refl _).bind fun x => Le.ite (.refl _) ((Le.refl _).bind fun e => (Le.refl _).bind fun cur => ih (by omega) _)
      refine (Le.refl _).bind fun e => (Le.refl _).bind fun w => Le.ite ?_ ?_
      · exact (Le.refl _).bind fun x => (Le.refl _).bind fun s => key s
      · exact (Le.refl _).bind fun s => key s

omit [Mul D] in
theorem modify_le (hf : f ≤ f') (u : Nat) (s : Refining D) : Le (modify f u s) (modify f' u s) :=
  (Le.refl _).bind fun _ => Le.ite ((discharge_le u hf s).bind fun _ => .refl _) (.refl _)

theorem refineLoop_le (hf : f ≤ f') : ∀ {k k' : Nat} (_ : k ≤ k') (s : Refining D), Le (refineLoop f k s) (refineLoop f' k' s) := by
  intro k
  induction k with
  | zero => intro k' _ s; exact .fuel _
  | succ k ih =>
    intro k' h s
    obtain ⟨k', rfl⟩ : ∃ j, k' = j + 1 := ⟨k' - 1, by omega⟩
    unfold refineLoop
    cases s.st with
    | nil => exact .refl _
    | cons u st =>
      exact (Le.refl _).bind fun vis => (Le.refl _).bind fun a => Le.ite (.refl _) ((modify_le hf _ _).bind fun s => ih (by omega) s)

theorem refine_le (hf : f ≤ f') (s : CostScaling D) : Le (refine f s) (refine f' s) :=
  (Le.forRange (fun s u => saturateNode_le hf s u) _ _ _).bind fun _ => (Le.refl _).bind fun _ => (refineLoop_le hf hf _).bind fun _ => .refl _
end

section
variable [Zero D] [One D] [Add D] [Sub D] [Neg D] [Mul D] [Div D] [IntCast D] [LT D] [LE D] [DecidableLT D] [DecidableLE D] [BEq D]

omit [Neg D] in
theorem scale_le (hf : f ≤ f') : ∀ {k k' : Nat} (_ : k ≤ k') (s : CostScaling D), Le (scale f k s) (scale f' k' s) := by
  intro k
  induction k with
  | zero => intro k' _ s; exact .fuel _
  | succ k ih =>
    intro k' h s
    obtain ⟨k', rfl⟩ : ∃ j, k' = j + 1 := ⟨k' - 1, by omega⟩
    unfold scale
    exact Le.ite ((refine_le hf s).bind fun _ => Le.ite (ih (by omega) _) (.refl _)) (.refl _)

theorem minCost_le (hf : f ≤ f') (n : Nat) (arc : List (InputEdge D)) : Le (minCost imax f n arc) (minCost imax f' n arc) :=
  (Le.refl _).bind fun _ => (scale_le hf hf _).bind fun _ => .refl _
end
end CostScaling

namespace SimpleSolver
variable [Zero D] [One D] [Add D] [Sub D] [Neg D] [Mul D] [Div D] [IntCast D] [LT D] [LE D] [DecidableLT D] [DecidableLE D] [BEq D]

/-- One callback says no more than another. -/
def FnLe (g g' : Fn D) : Prop := ∀ x, Le (g x) (g' x)

omit [Zero D] [One D] [Add D] [Mul D] [Div D] [LE D] [LT D] [DecidableLT D] [DecidableLE D] [BEq D] in
theorem bij_le {g g' : Fn D} (hg : FnLe g g') (l r x : Int) : Le (bij imax g l r x) (bij imax g' l r x) :=
  Le.ite (.refl _) (Le.ite (.refl _) ((Le.refl _).bind fun _ => (hg _).bind fun _ => (hg _).bind fun _ => .refl _))

omit [Zero D] [One D] [Add D] [Sub D] [Neg D] [Mul D] [Div D] [IntCast D] [BEq D] in
theorem ternary_le {g g' : Fn D} (hg : FnLe g g') : ∀ {f f' : Nat} (_ : f ≤ f') (l r : Int), Le (ternary imax g f l r) (ternary imax g' f' l r) := by
  intro f
  induction f with
  | zero => intro f' _ l r; exact .fuel _
  | succ f ih =>
    intro f' h l r
    obtain ⟨f', rfl⟩ : ∃ k, f' = k + 1 := ⟨f' - 1, by omega⟩
    unfold ternary
    refine Le.ite ((Le.refl _).bind fun d => (Le.refl _).bind fun lm => (Le.refl _).bind fun rm => (hg _).bind fun a => (hg _).bind fun b => ?_)
      ((hg _).bind fun a => (hg _).bind fun b => .refl _)
    exact Le.ite ((Le.refl _).bind fun _ => ih (by omega) _ _) ((Le.refl _).bind fun _ => ih (by omega) _ _)

omit [Zero D] [One D] [Add D] [Sub D] [Neg D] [Mul D] [Div D] [IntCast D] [BEq D] in
theorem suffixMin_le (hf : f ≤ f') (e : OmegaLimit D) : FnLe (suffixMin imax f e) (suffixMin imax f' e) :=
  fun _ => ternary_le (fun _ => .refl _) hf _ _

omit [One D] [Add D] [Mul D] [Div D] [LT D] [DecidableLT D] [BEq D] in
theorem splitAt_le {g g' : Fn D} (hg : FnLe g g') (l r : Int) (u v : Nat) (j : Int) : Le (splitAt imax g l r u v j) (splitAt imax g' l r u v j) :=
  (Le.refl _).bind fun _ => (bij_le hg _ _ _).bind fun _ => (bij_le hg _ _ _).bind fun _ => .refl _

omit [One D] [Add D] [Mul D] [Div D] [LT D] [DecidableLT D] [BEq D] in
theorem split_le {g g' : Fn D} (hf : f ≤ f') (hg : FnLe g g') (l r : Int) (u v : Nat) (edge : List (InputEdge D)) :
    Le (split imax f g l r u v edge) (split imax f' g' l r u v edge) :=
  (Le.whileLoop (fun _ => .refl _) (fun _ => (splitAt_le hg _ _ _ _ _).bind fun _ => .refl _) hf _).bind fun _ => .refl _

/-- The costs kept for later say no more than others; all else is equal. -/
def StLe (s s' : State D) : Prop :=
  List.Forall₂ (fun (a b : Fn D × Int × Int) => FnLe a.1 b.1 ∧ a.2 = b.2) s.parts s'.parts ∧ s.edge = s'.edge ∧ s.mx = s'.mx

omit [Zero D] [One D] [Add D] [Sub D] [Neg D] [Mul D] [Div D] [IntCast D] [LT D] [LE D] [DecidableLT D] [DecidableLE D] [BEq D] in
theorem StLe.refl (s : State D) : StLe s s := ⟨List.forall₂_same.2 fun _ _ => ⟨fun _ => .refl _, rfl⟩, rfl, rfl⟩

/-- `Le` up to a relation of the results -/
def LeRel {α : Type} (r : α → α → Prop) (x y : Res α) : Prop := x = .error .fuel ∨ (∃ a b, x = .ok a ∧ y = .ok b ∧ r a b) ∨ ∃ e, x = .error e ∧ y = .error e

theorem LeRel.bind {α β : Type} {r : β → β → Prop} {x y : Res α} {g h : α → Res β} (hx : Le x y) (hg : ∀ a, LeRel r (g a) (h a)) :
    LeRel r (x >>= g) (y >>= h) := by
  rcases hx with rfl | rfl
  · exact .inl rfl
  · cases x with
    | error e => exact .inr (.inr ⟨e, rfl, rfl⟩)
    | ok a => exact hg a

theorem LeRel.ite {α : Type} {r : α → α → Prop} {c : Prop} [Decidable c] {a b a' b' : Res α} (h1 : LeRel r a a') (h2 : LeRel r b b') :
    LeRel r (if c then a else b) (if c then a' else b') := by
  split
  · exact h1
  · exact h2

theorem LeRel.le {α β : Type} {r : α → α → Prop} {x y : Res α} {g h : α → Res β} (hx : LeRel r x y) (hg : ∀ a b, r a b → Le (g a) (h b)) :
    Le (x >>= g) (y >>= h) := by
  rcases hx with rfl | ⟨a, b, rfl, rfl, hr⟩ | ⟨e, rfl, rfl⟩
  · exact .inl rfl
  · exact hg a b hr
  · exact .inr rfl

/-- the relation of the results of the loops -/
def OptLe : Option (State D) → Option (State D) → Prop
  | none, none => True
  | some s, some s' => StLe s s'
  | _, _ => False

omit [One D] [Mul D] [Div D] [BEq D] in
theorem nodes_le (hf : f ≤ f') (node : List (MuLimit D)) : ∀ (cnt i : Nat) (s s' : State D), StLe s s' →
    LeRel OptLe (nodes imax f node cnt i s) (nodes imax f' node cnt i s')
  | 0, _, s, s', h => .inr (.inl ⟨_, _, rfl, rfl, h⟩)
  | cnt + 1, i, s, s', h => by
    unfold nodes
    refine LeRel.bind (.refl _) fun e => LeRel.ite (.inr (.inl ⟨_, _, rfl, rfl, trivial⟩)) ?_
    refine LeRel.bind (.refl _) fun a => LeRel.bind (.refl _) fun b => ?_
    rw [h.2.1, h.2.2]
    refine LeRel.bind (split_le hf (fun _ => .refl _) _ _ _ _ _) fun edge => nodes_le hf node cnt (i + 1) _ _ ⟨?_, rfl, rfl⟩
    exact List.rel_append h.1 (.cons ⟨fun _ => .refl _, rfl⟩ .nil)

omit [One D] [Mul D] [Div D] [BEq D] in
theorem pairs_le (hf : f ≤ f') (node : List (MuLimit D)) : ∀ (edges : List (OmegaLimit D)) (s s' : State D), StLe s s' →
    LeRel OptLe (pairs imax f node edges s) (pairs imax f' node edges s')
  | [], s, s', h => .inr (.inl ⟨_, _, rfl, rfl, h⟩)
  | e :: rest, s, s', h => by
    unfold pairs
    refine LeRel.ite (.inr (.inl ⟨_, _, rfl, rfl, trivial⟩)) ?_
    refine LeRel.bind (.refl _) fun a => LeRel.bind (.refl _) fun b => LeRel.bind (.refl _) fun mi => LeRel.bind (.refl _) fun mj =>
      LeRel.bind (.refl _) fun d => LeRel.bind (.refl _) fun _ => LeRel.bind (.refl _) fun _ => ?_
    rw [h.2.1, h.2.2]
    refine LeRel.bind (split_le hf (suffixMin_le hf e) _ _ _ _ _) fun edge => pairs_le hf node rest _ _ ⟨?_, rfl, rfl⟩
    exact List.rel_append h.1 (.cons ⟨suffixMin_le hf e, rfl⟩ .nil)

omit [Zero D] [One D] [Sub D] [Neg D] [Mul D] [Div D] [IntCast D] [BEq D] in
theorem addMinima_le (hf : f ≤ f') {parts parts' : List (Fn D × Int × Int)}
    (h : List.Forall₂ (fun (a b : Fn D × Int × Int) => FnLe a.1 b.1 ∧ a.2 = b.2) parts parts') :
    ∀ res : D, Le (addMinima imax f parts res) (addMinima imax f' parts' res) := by
  induction h with
  | nil => intro res; exact .refl _
  | cons hx _ ih =>
    rename_i a b L L' _
    intro res
    obtain ⟨g, l, r⟩ := a
    obtain ⟨g', l', r'⟩ := b
    obtain ⟨h1, h2⟩ := hx
    obtain ⟨rfl, rfl⟩ := Prod.mk.inj h2
    unfold addMinima
    exact (ternary_le h1 hf _ _).bind fun _ => ih _

theorem solve_le (hf : f ≤ f') (n : Nat) (node : List (MuLimit D)) (edge : List (OmegaLimit D)) :
    Le (solve imax f n node edge) (solve imax f' n node edge) := by
  unfold solve
  refine LeRel.le (nodes_le hf node n 1 _ _ (StLe.refl _)) fun a b h => ?_
  cases a with
  | none => cases b with
    | none => exact .refl _
    | some _ => exact h.elim
  | some s => cases b with
    | none => exact h.elim
    | some s' =>
      refine LeRel.le (pairs_le hf node edge _ _ h) fun a b h => ?_
      cases a with
      | none => cases b with
        | none => exact .refl _
        | some _ => exact h.elim
      | some s => cases b with
        | none => exact h.elim
        | some s' =>
          refine (Le.refl _).bind fun n1 => ?_
          dsimp only
          rw [h.2.1, h.2.2]
          exact (CostScaling.minCost_le hf _ _).bind fun _ => (addMinima_le hf h.1 _).bind fun _ => .refl _

end SimpleSolver
end AHO
