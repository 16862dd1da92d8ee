import Verif.Model.Base
import Mathlib.Tactic.Common
/-!
# Simplification lemmas for the primitives of the model
-/

namespace AHO

@[simp] theorem ok_bind {α β : Type} (a : α) (f : α → Res β) :
    ((Except.ok a : Res α) >>= f) = f a := rfl

@[simp] theorem error_bind {α β : Type} (e : Err) (f : α → Res β) :
    ((Except.error e : Res α) >>= f) = .error e := rfl

theorem bind_eq_ok {α β : Type} {x : Res α} {f : α → Res β} {b : β} :
    (x >>= f) = .ok b ↔ ∃ a, x = .ok a ∧ f a = .ok b := by
  cases x <;> simp

theorem ck_ok {imax x : Int} (h1 : -imax - 1 ≤ x) (h2 : x ≤ imax) : ck imax x = .ok x := by
  simp [ck, h1, h2]

namespace Vec
variable {α : Type}

@[simp] theorem set_size (v : Vec α) (i : Nat) (x : α) : (v.set i x).size = v.size := rfl

theorem set_get (v : Vec α) (i : Nat) (x : α) (k : Nat) :
    (v.set i x).get k = if k = i then x else v.get k := rfl

@[simp] theorem set_get_self (v : Vec α) (i : Nat) (x : α) : (v.set i x).get i = x := by
  simp [set_get]

theorem set_get_ne (v : Vec α) {i k : Nat} (x : α) (h : k ≠ i) : (v.set i x).get k = v.get k := by
  simp [set_get, h]

theorem rd_ok {v : Vec α} {i : Nat} (h : i < v.size) : v.rd i = .ok (v.get i) := by
  simp [rd, h]

theorem wr_ok {v : Vec α} {i : Nat} (x : α) (h : i < v.size) : v.wr i x = .ok (v.set i x) := by
  simp [wr, h]

@[simp] theorem replicate_size (n : Nat) (x : α) : (replicate n x).size = n := rfl
@[simp] theorem replicate_get (n : Nat) (x : α) (k : Nat) : (replicate n x).get k = x := rfl

@[ext] theorem ext' {v w : Vec α} (h1 : v.size = w.size) (h2 : ∀ k, v.get k = w.get k) : v = w := by
  cases v; cases w; simp at *; exact ⟨h1, funext h2⟩

end Vec

theorem listRd_ok {α : Type} {l : List α} {i : Nat} (h : i < l.length) : listRd l i = .ok l[i] := by
  simp [listRd, h]

theorem listRd_eq_ok {α : Type} {l : List α} {i : Nat} {x : α} (h : l[i]? = some x) :
    listRd l i = .ok x := by
  simp [listRd, h]

end AHO
