import Verif.Proof.Double
/-!
# Floating-point operations whose exact result is representable

`Exact f x`: rounding does not change `x`. `Sim x y g Q`: if the exact program `x` returns `a`, then the program `y` returns `g a`, and `Q a`.
-/

namespace AHO
open Format

/-- `x` is a number of the format -/
def Exact (f : Format) (x : ℚ) : Prop := f.result x = .fin x

section
variable {f : Format} {a b : ℚ}

theorem Exact.add (h : Exact f (a + b)) : Flt.ofRat f a + Flt.ofRat f b = Flt.ofRat f (a + b) := congrArg Flt.mk h

theorem Exact.sub (h : Exact f (a - b)) : Flt.ofRat f a - Flt.ofRat f b = Flt.ofRat f (a - b) := by
  refine congrArg Flt.mk (Eq.trans ?_ h)
  rw [sub_eq_add_neg]

theorem Exact.mul (h : Exact f (a * b)) : Flt.ofRat f a * Flt.ofRat f b = Flt.ofRat f (a * b) := congrArg Flt.mk h

theorem Exact.div (hb : b ≠ 0) (h : Exact f (a / b)) : Flt.ofRat f a / Flt.ofRat f b = Flt.ofRat f (a / b) := by
  show Flt.rnd f (if b = 0 then Flt.infSign a else .fin (a / b)) = _
  rw [if_neg hb]
  exact congrArg Flt.mk h

theorem Exact.int {k : Int} (h : Exact f (k : ℚ)) : ((k : Int) : Flt f) = Flt.ofRat f (k : ℚ) := congrArg Flt.mk h

theorem Flt.neg_ofRat (a : ℚ) : -Flt.ofRat f a = Flt.ofRat f (-a) := rfl

theorem Flt.zero_ofRat : (0 : Flt f) = Flt.ofRat f 0 := rfl

theorem Flt.one_ofRat : (1 : Flt f) = Flt.ofRat f 1 := rfl

theorem Flt.lt_ofRat : Flt.ofRat f a < Flt.ofRat f b ↔ a < b := Iff.rfl

theorem Flt.le_ofRat : Flt.ofRat f a ≤ Flt.ofRat f b ↔ a ≤ b := Iff.rfl

theorem Flt.beq_ofRat : (Flt.ofRat f a == Flt.ofRat f b) = decide (a = b) := rfl

theorem Flt.dmax_ofRat : dmax (Flt.ofRat f a) (Flt.ofRat f b) = Flt.ofRat f (dmax a b) := by
  unfold dmax
  by_cases h : a < b
  · rw [if_pos h, if_pos (Flt.lt_ofRat.2 h)]
  · rw [if_neg h, if_neg (fun h' => h (Flt.lt_ofRat.1 h'))]

/-- multiples of `2 ^ j` which are small enough are exact -/
theorem exact_of_mem {j : Int} (hj : f.emin ≤ j) (hm : f.p + j ≤ f.emax) {x : ℚ} (hx : x ∈ AddSubgroup.zmultiples (pow2 j))
    (hb : |x| < 2 ^ f.p * pow2 j) : Exact f x := result_of_mem hj hm hx hb

end

/-- one-sided simulation -/
def Sim {α β : Type} (x : Res α) (y : Res β) (g : α → β) (Q : α → Prop) : Prop := ∀ a, x = .ok a → y = .ok (g a) ∧ Q a

namespace Sim
variable {α β γ δ : Type} {x : Res α} {y : Res β} {g : α → β} {Q Q' : α → Prop}

theorem ok {a : α} {b : β} (h : b = g a) (hq : Q a) : Sim (.ok a : Res α) (.ok b : Res β) g Q := by
  rintro a' ⟨⟩
  exact ⟨by rw [h], hq⟩

theorem error {e : Err} : Sim (.error e : Res α) y g Q := by
  rintro a' ⟨⟩

theorem bind {k : α → Res γ} {k' : β → Res δ} {g' : γ → δ} {Q' : γ → Prop} (h : Sim x y g Q)
    (h2 : ∀ a, x = .ok a → Q a → Sim (k a) (k' (g a)) g' Q') : Sim (x >>= k) (y >>= k') g' Q' := by
  intro c hc
  cases hx : x with
  | error e => rw [hx] at hc; cases hc
  | ok a =>
    rw [hx] at hc
    obtain ⟨h3, h4⟩ := h a hx
    rw [h3]
    exact h2 a hx h4 c hc

/-- the same value on both sides -/
theorem same {x : Res α} : Sim x x (fun a => a) (fun _ => True) := fun _ h => ⟨h, trivial⟩

theorem bind_same {x : Res α} {k : α → Res γ} {k' : α → Res δ} {g' : γ → δ} {Q' : γ → Prop}
    (h2 : ∀ a, x = .ok a → Sim (k a) (k' a) g' Q') : Sim (x >>= k) (x >>= k') g' Q' :=
  same.bind fun a ha _ => h2 a ha

theorem mono (h : Sim x y g Q) (h2 : ∀ a, Q a → Q' a) : Sim x y g Q' := fun a ha => ⟨(h a ha).1, h2 a (h a ha).2⟩

theorem and (h : Sim x y g Q) (h2 : ∀ a, x = .ok a → Q' a) : Sim x y g (fun a => Q a ∧ Q' a) :=
  fun a ha => ⟨(h a ha).1, (h a ha).2, h2 a ha⟩

theorem ite {c c' : Prop} [Decidable c] [Decidable c'] {x₁ x₂ : Res α} {y₁ y₂ : Res β} (hc : c' ↔ c) (h1 : c → Sim x₁ y₁ g Q)
    (h2 : ¬ c → Sim x₂ y₂ g Q) : Sim (if c then x₁ else x₂) (if c' then y₁ else y₂) g Q := by
  by_cases h : c
  · rw [if_pos h, if_pos (hc.2 h)]; exact h1 h
  · rw [if_neg h, if_neg (fun h' => h (hc.1 h'))]; exact h2 h

theorem rd {v : Vec α} {w : Vec β} {i : Nat} (h : w = v.map g) : Sim (v.rd i) (w.rd i) g (fun a => i < v.size ∧ a = v.get i) := by
  subst h
  intro a ha
  rw [Vec.map_rd, ha]
  refine ⟨rfl, ?_⟩
  by_cases hi : i < v.size
  · rw [Vec.rd_ok hi] at ha
    cases ha
    exact ⟨hi, rfl⟩
  · simp [Vec.rd, hi] at ha

theorem wr {v : Vec α} {w : Vec β} {i : Nat} {a : α} {b : β} (h : w = v.map g) (hb : b = g a) :
    Sim (v.wr i a) (w.wr i b) (Vec.map g) (fun v' => i < v.size ∧ v' = v.set i a) := by
  subst h hb
  intro v' hv
  rw [Vec.map_wr, hv]
  refine ⟨rfl, ?_⟩
  by_cases hi : i < v.size
  · rw [Vec.wr_ok _ hi] at hv
    cases hv
    exact ⟨hi, rfl⟩
  · simp [Vec.wr, hi] at hv

theorem whileLoop {cond : α → Res Bool} {cond' : β → Res Bool} {body : α → Res α} {body' : β → Res β} (P : α → Prop)
    (h1 : ∀ s, P s → Sim (cond s) (cond' (g s)) (fun b => b) (fun _ => True))
    (h2 : ∀ s, P s → cond s = .ok true → Sim (body s) (body' (g s)) g P) :
    ∀ (fuel : Nat) (s : α), P s → Sim (AHO.whileLoop cond body fuel s) (AHO.whileLoop cond' body' fuel (g s)) g
      (fun s' => P s' ∧ cond s' = .ok false) := by
  intro fuel
  induction fuel with
  | zero => intro s _; exact error
  | succ fuel ih =>
    intro s hs
    unfold AHO.whileLoop
    refine (h1 s hs).bind fun b hb _ => ?_
    cases b with
    | false => exact ok rfl ⟨hs, hb⟩
    | true =>
      simp only [if_true]
      exact (h2 s hs hb).bind fun s' _ hs' => ih s' hs'

theorem forRange {body : α → Nat → Res α} {body' : β → Nat → Res β} (P : α → Prop) {hi : Nat}
    (h2 : ∀ s i, P s → i < hi → Sim (body s i) (body' (g s) i) g P) :
    ∀ (cnt lo : Nat) (s : α), P s → lo + cnt = hi → Sim (AHO.forRange body lo cnt s) (AHO.forRange body' lo cnt (g s)) g P := by
  intro cnt
  induction cnt with
  | zero => intro lo s hs _; exact ok rfl hs
  | succ cnt ih =>
    intro lo s hs h
    unfold AHO.forRange
    exact (h2 s lo hs (by omega)).bind fun s' _ hs' => ih (lo + 1) s' hs' (by omega)

end Sim
end AHO
