import Verif.Proof.Mono
import Verif.Model.Generator
/-!
# More fuel changes no result of the generator
-/

namespace AHO
namespace Gen
variable {α β D : Type} {f f' : Nat}

/-- from every state, `x` runs out of fuel or ends like `y` -/
def GLe (x y : Gen α) : Prop := ∀ s, Le (x s) (y s)

theorem GLe.refl (x : Gen α) : GLe x x := fun _ => .refl _

theorem GLe.fuel (y : Gen α) : GLe (throw .fuel) y := fun _ => .inl rfl

theorem GLe.bind {x y : Gen α} {g h : α → Gen β} (h1 : GLe x y) (h2 : ∀ a, GLe (g a) (h a)) : GLe (x >>= g) (y >>= h) :=
  fun s => (h1 s).bind fun p => h2 p.1 p.2

theorem GLe.ite {c : Prop} [Decidable c] {a b a' b' : Gen α} (h1 : GLe a a') (h2 : GLe b b') : GLe (if c then a else b) (if c then a' else b') := by
  split
  · exact h1
  · exact h2

theorem reject_le {draw : Gen Nat} {limit : Nat} : ∀ {f f' : Nat} (_ : f ≤ f'), GLe (reject draw limit f) (reject draw limit f') := by
  intro f
  induction f with
  | zero => intro f' _; exact .fuel _
  | succ f ih =>
    intro f' h
    obtain ⟨f', rfl⟩ : ∃ m, f' = m + 1 := ⟨f' - 1, by omega⟩
    unfold reject
    exact (GLe.refl _).bind fun a => .ite (ih (by omega)) (.refl _)

theorem nextInt_le (h : f ≤ f') (n : Int) : GLe (nextInt f n) (nextInt f' n) := by
  unfold nextInt
  exact .ite (.refl _) (.ite (.refl _) ((reject_le h).bind fun _ => .refl _))

theorem nextIn_le (h : f ≤ f') (a b : Int) : GLe (nextIn f a b) (nextIn f' a b) := by
  unfold nextIn nextLong
  exact GLe.bind (.ite (.refl _) ((reject_le h).bind fun _ => .refl _)) fun _ => .refl _

theorem shuffleFrom_le (h : f ≤ f') : ∀ (cnt i : Nat) (l : List α), GLe (shuffleFrom f cnt i l) (shuffleFrom f' cnt i l) := by
  intro cnt
  induction cnt with
  | zero => intro i l; exact .refl _
  | succ cnt ih =>
    intro i l
    unfold shuffleFrom
    exact (nextInt_le h _).bind fun r => (GLe.refl _).bind fun l => ih _ l

theorem drawPair_le (h : f ≤ f') {node : Int} {multi : Bool} {e : List (Int × Int)} : ∀ {k k' : Nat} (_ : k ≤ k'),
    GLe (drawPair f node multi e k) (drawPair f' node multi e k') := by
  intro k
  induction k with
  | zero => intro k' _; exact .fuel _
  | succ k ih =>
    intro k' hk
    obtain ⟨k', rfl⟩ : ∃ m, k' = m + 1 := ⟨k' - 1, by omega⟩
    unfold drawPair
    exact (nextInt_le h _).bind fun u => (nextInt_le h _).bind fun v => .ite (ih (by omega)) (.refl _)

theorem edgeLoop_le (h : f ≤ f') {node : Int} {multi : Bool} : ∀ {k k' : Nat} (_ : k ≤ k') (m : Int) (edge e : List (Int × Int)),
    GLe (edgeLoop f node multi k m edge e) (edgeLoop f' node multi k' m edge e) := by
  intro k
  induction k with
  | zero => intro k' _ m edge e; exact .fuel _
  | succ k ih =>
    intro k' hk m edge e
    obtain ⟨k', rfl⟩ : ∃ m, k' = m + 1 := ⟨k' - 1, by omega⟩
    unfold edgeLoop
    refine .ite (.refl _) ((GLe.refl _).bind fun m' => (drawPair_le h h).bind fun p => ?_)
    exact GLe.bind ((nextInt_le h _).bind fun _ => .refl _) fun x => ih (by omega) _ _ _

section
variable [IntCast D] [Add D] [Mul D] [Div D]

theorem randF_le (h : f ≤ f') (fl : Int × Int) (gi : Bool) : GLe (randF (D := D) f fl gi) (randF f' fl gi) := by
  unfold randF
  exact (GLe.refl _).bind fun _ => (GLe.refl _).bind fun _ => (nextIn_le h _ _).bind fun _ => (GLe.refl _).bind fun _ => (GLe.refl _).bind fun _ =>
    (nextIn_le h _ _).bind fun _ => (nextIn_le h _ _).bind fun _ => .refl _

theorem randRange_le (h : f ≤ f') (l : Int × Int) : GLe (randRange f l) (randRange f' l) := by
  unfold randRange
  exact (nextIn_le h _ _).bind fun _ => (nextIn_le h _ _).bind fun _ => .refl _

theorem nodeLoop_le (h : f ≤ f') (nl fl : Int × Int) (gi : Bool) : ∀ (cnt : Nat) (l : List (MuLimit D)),
    GLe (nodeLoop f nl fl gi cnt l) (nodeLoop f' nl fl gi cnt l) := by
  intro cnt
  induction cnt with
  | zero => intro l; exact .refl _
  | succ cnt ih =>
    intro l
    unfold nodeLoop
    exact (randRange_le h _).bind fun _ => (randF_le h _ _).bind fun _ => ih _

theorem pairLoop_le (h : f ≤ f') (el fl : Int × Int) (gi : Bool) : ∀ (ends : List (Int × Int)) (l : List (OmegaLimit D)),
    GLe (pairLoop f el fl gi ends l) (pairLoop f' el fl gi ends l) := by
  intro ends
  induction ends with
  | nil => intro l; exact .refl _
  | cons p rest ih =>
    intro l
    unfold pairLoop
    exact (randRange_le h _).bind fun _ => (randF_le h _ _).bind fun _ => (GLe.refl _).bind fun _ => (GLe.refl _).bind fun _ => ih _

theorem tinyGen_le (h : f ≤ f') (n mlimit : Int) (multi : Bool) (nl el fl : Int × Int) (seed : Nat) (gi : Bool) :
    GLe (tinyGen (D := D) f n mlimit multi nl el fl seed gi) (tinyGen f' n mlimit multi nl el fl seed gi) := by
  unfold tinyGen genGraph shuffle
  refine (GLe.refl _).bind fun _ => (GLe.refl _).bind fun _ => (nextIn_le h _ _).bind fun _ => (GLe.refl _).bind fun _ => ?_
  exact GLe.bind ((edgeLoop_le h h _ _ _).bind fun _ => shuffleFrom_le h _ _ _) fun _ => (nodeLoop_le h _ _ _ _ _).bind fun _ =>
    (pairLoop_le h _ _ _ _ _).bind fun _ => .refl _

end
end Gen
end AHO
