import Verif.Proof.LCTMin
/-!
# Which assertions can fail: the link-cut tree

`NF r`: the outcome `r` is not a failed assertion. `NA r P`: moreover, a result has `P`.
-/

namespace AHO

/-- the outcome is not a failed assertion -/
def NF {α : Type} (r : Res α) : Prop := r ≠ .error .assertFail

namespace NF
variable {α β : Type}

theorem ok {a : α} : NF (.ok a : Res α) := fun h => by cases h

theorem bind {r : Res α} {f : α → Res β} (h : NF r) (hf : ∀ a, r = .ok a → NF (f a)) : NF (r >>= f) := by
  cases r with
  | ok a => exact hf a rfl
  | error e => exact fun h' => h (by cases h'; rfl)

theorem ck (imax x : Int) : NF (AHO.ck imax x) := by
  unfold AHO.ck
  split <;> exact fun h => by cases h

theorem rd (v : Vec α) (i : Nat) : NF (v.rd i) := by
  unfold Vec.rd
  split <;> exact fun h => by cases h

theorem wr (v : Vec α) (i : Nat) (x : α) : NF (v.wr i x) := by
  unfold Vec.wr
  split <;> exact fun h => by cases h

theorem deref (p : Option Nat) : NF (LCT.deref p) := by
  unfold LCT.deref
  split <;> exact fun h => by cases h

theorem listRd (l : List α) (i : Nat) : NF (AHO.listRd l i) := by
  unfold AHO.listRd
  split <;> exact fun h => by cases h

theorem whileLoop {σ : Type} {cond : σ → Res Bool} {body : σ → Res σ} (hc : ∀ s, NF (cond s)) (hb : ∀ s, NF (body s)) :
    ∀ (fuel : Nat) (s : σ), NF (AHO.whileLoop cond body fuel s)
  | 0, _ => fun h => by cases h
  | fuel + 1, s => by
    unfold AHO.whileLoop
    refine (hc s).bind fun b _ => ?_
    split
    · exact (hb s).bind fun s' _ => whileLoop hc hb fuel s'
    · exact ok

end NF

/-- The outcome is not a failed assertion, and a result has `P`. -/
def NA {α : Type} (r : Res α) (P : α → Prop) : Prop := NF r ∧ ∀ a, r = .ok a → P a

namespace NA
variable {α β : Type}

theorem ok {P : α → Prop} {a : α} (h : P a) : NA (.ok a : Res α) P := ⟨.ok, fun _ e => by cases e; exact h⟩

theorem mono {r : Res α} {P Q : α → Prop} (h : NA r P) (hi : ∀ a, r = .ok a → P a → Q a) : NA r Q := ⟨h.1, fun a e => hi a e (h.2 a e)⟩

theorem bind {r : Res α} {P : α → Prop} {f : α → Res β} {Q : β → Prop} (h : NA r P) (hf : ∀ a, r = .ok a → P a → NA (f a) Q) :
    NA (r >>= f) Q := by
  obtain ⟨h1, h2⟩ := h
  cases r with
  | ok a => exact hf a rfl (h2 a rfl)
  | error e => exact ⟨fun h' => h1 (by cases h'; rfl), fun b e => by cases e⟩

theorem whileLoop {σ : Type} {P : σ → Prop} {cond : σ → Res Bool} {body : σ → Res σ} (hc : ∀ s, P s → NF (cond s))
    (hb : ∀ s, P s → cond s = .ok true → NA (body s) P) : ∀ (fuel : Nat) (s : σ), P s →
    NA (AHO.whileLoop cond body fuel s) (fun s => P s ∧ cond s = .ok false)
  | 0, _, _ => by
    unfold AHO.whileLoop
    exact ⟨fun h => (by cases h), fun _ e => (by cases e)⟩
  | fuel + 1, s, h => by
    unfold AHO.whileLoop
    refine NA.bind (P := fun _ => True) ⟨hc s h, fun _ _ => trivial⟩ fun b e _ => ?_
    cases b with
    | true => exact (hb s h e).bind fun s' _ h' => whileLoop hc hb fuel s' h'
    | false => exact NA.ok ⟨h, e⟩

theorem forRange {σ : Type} {P : Nat → σ → Prop} {body : σ → Nat → Res σ} (hi : Nat) (hb : ∀ s i, i < hi → P i s → NA (body s i) (P (i + 1))) :
    ∀ (cnt lo : Nat) (s : σ), lo + cnt = hi → P lo s → NA (AHO.forRange body lo cnt s) (P hi)
  | 0, lo, s, e, h => by
    unfold AHO.forRange
    cases e
    exact NA.ok h
  | cnt + 1, lo, s, e, h => by
    unfold AHO.forRange
    exact (hb s lo (by omega) h).bind fun s' _ h' => forRange hi hb cnt (lo + 1) s' (by omega) h'

end NA

theorem NF.na {α : Type} {r : Res α} (h : NF r) : NA r (fun _ => True) := ⟨h, fun _ _ => trivial⟩

namespace LCT
open T
set_option linter.unusedSectionVars false

variable {D : Type} [Add D] [Zero D] [BEq D] [LT D] [LE D] [DecidableLT D] [DecidableLE D]

theorem setc_nf (h : Heap D) (x : Nat) (p : Option Nat) (d : Bool) : NF (setc h x p d) := by
  unfold setc
  refine (NF.rd _ _).bind fun n _ => (NF.wr _ _ _).bind fun h _ => ?_
  split
  · exact .ok
  · exact (NF.rd _ _).bind fun _ _ => NF.wr _ _ _

theorem dir_nf (h : Heap D) (x : Nat) : NF (dir h x) := by
  unfold dir
  exact (NF.rd _ _).bind fun n _ => (NF.deref _).bind fun h _ => (NF.rd _ _).bind fun n _ => .ok

theorem isRoot_nf (h : Heap D) (x : Nat) : NF (isRoot h x) := by
  unfold isRoot
  refine (NF.rd _ _).bind fun n _ => ?_
  split
  · exact .ok
  · exact (NF.rd _ _).bind fun _ _ => .ok

/-- takes a computation without assertions apart -/
macro "nf" : tactic => `(tactic| repeat' first
  | exact NF.ok | exact NF.rd _ _ | exact NF.wr _ _ _ | exact NF.deref _ | exact NF.ck _ _ | exact setc_nf _ _ _ _ | exact dir_nf _ _
  | exact isRoot_nf _ _ | assumption | refine NF.bind ?_ fun _ _ => ?_ | split | dsimp only)

theorem pushUp_nf (h : Heap D) (x : Nat) : NF (pushUp h x) := by
  unfold pushUp
  nf

theorem rot_nf (h : Heap D) (x : Nat) : NF (rot h x) := by
  unfold rot
  have : ∀ h : Heap D, NF (pushUp h x) := fun h => pushUp_nf h x
  repeat' first | exact pushUp_nf _ _ | nf

theorem updateAdd_nf (h : Heap D) (x : Nat) (w : D) : NF (updateAdd h x w) := by
  unfold updateAdd
  exact (NF.rd _ _).bind fun _ _ => NF.wr _ _ _

theorem pushDown_nf (h : Heap D) (x : Nat) : NF (pushDown h x) := by
  unfold pushDown
  refine (NF.rd _ _).bind fun n _ => ?_
  split
  · have k1 : ∀ h : Heap D, NF (show Res (Heap D) from do let n ← h.rd x; h.wr x { n with add := 0 }) := fun h =>
      (NF.rd _ _).bind fun _ _ => NF.wr _ _ _
    have k2 : ∀ h1 : Heap D, NF (show Res (Heap D) from do
        let h2 ← match n.ch1 with
          | none => .ok h1
          | some c => updateAdd h1 c n.add
        let n ← h2.rd x
        h2.wr x { n with add := 0 }) := by
      intro h1
      cases n.ch1 with
      | none => exact k1 _
      | some c => exact (updateAdd_nf _ _ _).bind fun _ _ => k1 _
    cases n.ch0 with
    | none => exact k2 _
    | some c => exact (updateAdd_nf _ _ _).bind fun _ _ => k2 _
  · exact .ok

theorem pushDownFromRoot_nf : ∀ (fuel : Nat) (h : Heap D) (x : Nat), NF (pushDownFromRoot fuel h x)
  | 0, _, _ => fun h => by cases h
  | fuel + 1, h, x => by
    rw [pushDownFromRoot]
    refine (isRoot_nf _ _).bind fun r _ => ?_
    cases r with
    | true => exact NF.ok.bind fun _ _ => pushDown_nf _ _
    | false => exact (NF.rd _ _).bind fun _ _ => (NF.deref _).bind fun _ _ => (pushDownFromRoot_nf fuel _ _).bind fun _ _ => pushDown_nf _ _

theorem splayStep_nf (h : Heap D) (x : Nat) : NF (splayStep h x) := by
  unfold splayStep
  refine (NF.rd _ _).bind fun n _ => (NF.deref _).bind fun f _ => (isRoot_nf _ _).bind fun fr _ => ?_
  cases fr with
  | true => exact NF.ok.bind fun _ _ => rot_nf _ _
  | false =>
    refine (dir_nf _ _).bind fun dx _ => (dir_nf _ _).bind fun df _ => ?_
    split
    · exact (rot_nf _ _).bind fun _ _ => rot_nf _ _
    · exact (rot_nf _ _).bind fun _ _ => rot_nf _ _

theorem splay_nf (fuel : Nat) (h : Heap D) (x : Nat) : NF (splay fuel h x) := by
  unfold splay
  refine (pushDownFromRoot_nf _ _ _).bind fun h _ => NF.bind (NF.whileLoop (fun s => ?_) (fun s => splayStep_nf s x) _ _) fun _ _ => pushUp_nf _ _
  exact (isRoot_nf _ _).bind fun _ _ => .ok

theorem accessLoop_nf (fuel0 : Nat) : ∀ (fuel : Nat) (h : Heap D) (p q : Option Nat), NF (accessLoop fuel0 fuel h p q)
  | 0, _, _, _ => fun h => by cases h
  | fuel + 1, h, none, q => .ok
  | fuel + 1, h, some p, q => (splay_nf _ _ _).bind fun _ _ => (setc_nf _ _ _ _).bind fun _ _ => (pushUp_nf _ _).bind fun _ _ =>
    (NF.rd _ _).bind fun _ _ => accessLoop_nf fuel0 fuel _ _ _

theorem access_nf (fuel : Nat) (h : Heap D) (x : Nat) : NF (access fuel h x) :=
  (accessLoop_nf _ _ _ _ _).bind fun _ _ => splay_nf _ _ _

theorem leftmost_nf (h : Heap D) : ∀ (fuel x : Nat), NF (leftmost h fuel x)
  | 0, _ => fun h => by cases h
  | fuel + 1, x => by
    rw [leftmost]
    refine (NF.rd _ _).bind fun n _ => ?_
    split
    · exact .ok
    · exact leftmost_nf h fuel _

theorem findRoot_nf (fuel : Nat) (h : Heap D) (x : Nat) : NF (findRoot fuel h x) :=
  (access_nf _ _ _).bind fun _ _ => (leftmost_nf _ _ _).bind fun _ _ => .ok

theorem getVal_nf (fuel : Nat) (h : Heap D) (x : Nat) : NF (getVal fuel h x) := by
  unfold getVal
  refine (isRoot_nf _ _).bind fun r _ => ?_
  cases r with
  | true => exact NF.ok.bind fun _ _ => (NF.rd _ _).bind fun _ _ => .ok
  | false => exact (access_nf _ _ _).bind fun _ _ => (NF.rd _ _).bind fun _ _ => .ok

theorem setVal_nf (fuel : Nat) (h : Heap D) (x : Nat) (v : D) : NF (setVal fuel h x v) := by
  unfold setVal
  refine (isRoot_nf _ _).bind fun r _ => ?_
  cases r with
  | true => exact NF.ok.bind fun _ _ => (NF.rd _ _).bind fun _ _ => (NF.wr _ _ _).bind fun _ _ => pushUp_nf _ _
  | false => exact (access_nf _ _ _).bind fun _ _ => (NF.rd _ _).bind fun _ _ => (NF.wr _ _ _).bind fun _ _ => pushUp_nf _ _

theorem addValWayToRoot_nf (fuel : Nat) (h : Heap D) (x : Nat) (d : D) : NF (addValWayToRoot fuel h x d) :=
  (access_nf _ _ _).bind fun _ _ => updateAdd_nf _ _ _

theorem getMinLoop_nf : ∀ (fuel : Nat) (h : Heap D) (p : Nat) (ret : D × Option Nat), NF (getMinLoop fuel h p ret)
  | 0, _, _, _ => fun h => by cases h
  | fuel + 1, h, p, ret => by
    rw [getMinLoop]
    refine (pushDown_nf _ _).bind fun h _ => (NF.rd _ _).bind fun n _ => ?_
    repeat' first | exact getMinLoop_nf fuel _ _ _ | nf

theorem getMin_nf (fuel : Nat) (h : Heap D) (x : Nat) : NF (getMin fuel h x) :=
  (access_nf _ _ _).bind fun _ _ => (NF.rd _ _).bind fun _ _ => getMinLoop_nf _ _ _ _

end LCT
end AHO
