import Verif.Spec
import Mathlib.Tactic.Linarith
import Mathlib.Tactic.Ring
import Mathlib.Algebra.Order.Group.Abs
/-!
# Slopes of the (penalised) edge costs
-/

namespace AHO
open Spec
set_option linter.unusedSectionVars false

variable {K : Type} [Field K] [LinearOrder K] [IsStrictOrderedRing K]

/-- `⌈s / N⌉` -/
def cdiv (s N : Int) : Int := -((-s) / N)

/-- Left slope, at the scaled point `s / N`, of the function which is `g` on `[lo, up]` and has slope
`-M` below and `M` above. -/
def lft (N : Int) (M : K) (lo up : Int) (g : Int → K) (s : Int) : K :=
  if cdiv s N > up then M else if cdiv s N - 1 < lo then -M else g (cdiv s N) - g (cdiv s N - 1)

theorem convex_slope {g : Int → K} {l u : Int} (h : Convex g l u) {x y : Int} (hx : l ≤ x) (hxy : x ≤ y)
    (hy : y + 1 ≤ u) : g (x + 1) - g x ≤ g (y + 1) - g y := by
  obtain ⟨k, rfl⟩ : ∃ k : Nat, y = x + k := ⟨(y - x).toNat, by omega⟩
  clear hxy
  induction k with
  | zero => simp
  | succ k ih =>
    have h1 := ih (by push_cast at hy; omega)
    have h2 := h (x + k) (by omega) (by push_cast at hy; omega)
    refine h1.trans (h2.trans (le_of_eq ?_))
    push_cast
    ring_nf

theorem convex_rev {g : Int → K} {l u : Int} (h : Convex g l u) :
    Convex (fun x => g (-x)) (-u) (-l) := by
  intro x hx hy
  have := h (-(x + 2)) (by omega) (by omega)
  simp only
  have e1 : -(x + 2) + 1 = -(x + 1) := by ring
  have e2 : -(x + 2) + 2 = -x := by ring
  rw [e1, e2] at this
  linarith

/-- the data of one edge -/
structure EdgeOK (N : Int) (M : K) (lo up : Int) (g : Int → K) : Prop where
  npos : 0 < N
  le : lo ≤ up
  conv : Convex g lo up
  bd : ∀ x, lo ≤ x → x + 1 ≤ up → |g (x + 1) - g x| ≤ M
  mpos : 0 ≤ M

theorem EdgeOK.rev {N : Int} {M : K} {lo up g} (h : EdgeOK N M lo up g) :
    EdgeOK N M (-up) (-lo) (fun x => g (-x)) where
  npos := h.npos
  le := by have := h.le; omega
  conv := convex_rev h.conv
  bd x hx hy := by
    have := h.bd (-(x + 1)) (by omega) (by omega)
    have e1 : -(x + 1) + 1 = -x := by ring
    rw [e1, abs_sub_comm] at this
    exact this
  mpos := h.mpos

theorem cdiv_mono {s s' N : Int} (hN : 0 < N) (h : s ≤ s') : cdiv s N ≤ cdiv s' N := by
  unfold cdiv
  have : -s' / N ≤ -s / N := Int.ediv_le_ediv hN (by omega)
  omega

theorem cdiv_neg (s N : Int) : cdiv (-s) N = -(s / N) := by simp [cdiv]

theorem cdiv_bounds (s N : Int) (hN : 0 < N) : N * (cdiv s N - 1) < s ∧ s ≤ N * cdiv s N := by
  unfold cdiv
  have h1 := Int.mul_ediv_add_emod (-s) N
  have h2 := Int.emod_nonneg (-s) (show N ≠ 0 by omega)
  have h3 := Int.emod_lt_of_pos (-s) hN
  constructor
  · have : N * (-(-s / N) - 1) = -(N * (-s / N)) - N := by ring
    omega
  · have : N * (-(-s / N)) = -(N * (-s / N)) := by ring
    omega

theorem cdiv_floor (s N : Int) (hN : 0 < N) : s / N ≤ cdiv s N ∧ cdiv s N ≤ s / N + 1 := by
  obtain ⟨h1, h2⟩ := cdiv_bounds s N hN
  have h3 := Int.mul_ediv_add_emod s N
  have h4 := Int.emod_nonneg s (show N ≠ 0 by omega)
  have h5 := Int.emod_lt_of_pos s hN
  constructor
  · by_contra hc
    have : cdiv s N + 1 ≤ s / N := by omega
    have := Int.mul_le_mul_of_nonneg_left this hN.le
    rw [Int.mul_add] at this
    omega
  · by_contra hc
    have : s / N + 1 ≤ cdiv s N - 1 := by omega
    have := Int.mul_le_mul_of_nonneg_left this hN.le
    rw [Int.mul_add] at this
    omega

theorem cdiv_floor_lt (s' s N : Int) (hN : 0 < N) (h : s' < s) : s' / N + 1 ≤ cdiv s N := by
  obtain ⟨h1, h2⟩ := cdiv_bounds s N hN
  have h3 := Int.mul_ediv_add_emod s' N
  have h4 := Int.emod_nonneg s' (show N ≠ 0 by omega)
  by_contra hc
  have : cdiv s N ≤ s' / N := by omega
  have := Int.mul_le_mul_of_nonneg_left this hN.le
  omega

section
variable {N : Int} {M : K} {lo up : Int} {g : Int → K}

theorem slope_abs (h : EdgeOK N M lo up g) {c : Int} (h1 : ¬ c > up) (h2 : ¬ c - 1 < lo) :
    -M ≤ g c - g (c - 1) ∧ g c - g (c - 1) ≤ M := by
  have := h.bd (c - 1) (by omega) (by omega)
  rw [sub_add_cancel] at this
  exact abs_le.1 this

theorem lft_le (h : EdgeOK N M lo up g) (s) : lft N M lo up g s ≤ M := by
  unfold lft
  have := h.mpos
  split
  · exact le_rfl
  · split
    · linarith
    · next h1 h2 => exact (slope_abs h h1 h2).2

theorem le_lft (h : EdgeOK N M lo up g) (s) : -M ≤ lft N M lo up g s := by
  unfold lft
  have := h.mpos
  split
  · linarith
  · split
    · exact le_rfl
    · next h1 h2 => exact (slope_abs h h1 h2).1

theorem lft_mono (h : EdgeOK N M lo up g) {s s' : Int} (hs : s ≤ s') :
    lft N M lo up g s ≤ lft N M lo up g s' := by
  have hc := cdiv_mono h.npos hs
  by_cases h1 : cdiv s' N > up
  · have : lft N M lo up g s' = M := by simp [lft, h1]
    rw [this]; exact lft_le h s
  by_cases h2 : cdiv s N - 1 < lo
  · have : lft N M lo up g s = -M := by
      have : ¬ cdiv s N > up := by have := h.le; omega
      simp [lft, this, h2]
    rw [this]; exact le_lft h s'
  unfold lft
  rw [if_neg (by omega), if_neg h2, if_neg h1, if_neg (by omega)]
  have := convex_slope h.conv (x := cdiv s N - 1) (y := cdiv s' N - 1) (by omega) (by omega) (by omega)
  simpa using this

theorem lft_rev_le (h : EdgeOK N M lo up g) (s : Int) :
    lft N M lo up g s + lft N M (-up) (-lo) (fun x => g (-x)) (-s) ≤ 0 := by
  obtain ⟨f1, f2⟩ := cdiv_floor s N h.npos
  have hlu := h.le
  have hle := lft_le h s
  by_cases c1 : s / N < lo
  · have e1 : lft N M (-up) (-lo) (fun x => g (-x)) (-s) ≤ M := lft_le h.rev _
    have e2 : lft N M lo up g s = -M := by
      have h1 : ¬ cdiv s N > up := by omega
      have h2 : cdiv s N - 1 < lo := by omega
      simp [lft, h1, h2]
    linarith
  by_cases c2 : s / N + 1 > up
  · have e1 : lft N M (-up) (-lo) (fun x => g (-x)) (-s) = -M := by
      unfold lft
      rw [cdiv_neg, if_neg (by omega), if_pos (by omega)]
    linarith
  have e1 : lft N M (-up) (-lo) (fun x => g (-x)) (-s) = g (s / N) - g (s / N + 1) := by
    unfold lft
    rw [cdiv_neg, if_neg (by omega), if_neg (by omega)]
    simp only [neg_neg]
    rw [show -(-(s / N) - 1) = s / N + 1 by ring]
  rw [e1]
  by_cases c3 : cdiv s N - 1 < lo
  · have e2 : lft N M lo up g s = -M := by
      have h1 : ¬ cdiv s N > up := by omega
      simp [lft, h1, c3]
    rw [e2]
    have := (abs_le.1 (h.bd (s / N) (by omega) (by omega))).1
    linarith
  have e2 : lft N M lo up g s = g (cdiv s N) - g (cdiv s N - 1) := by
    have h1 : ¬ cdiv s N > up := by omega
    simp [lft, h1, c3]
  rw [e2]
  have := convex_slope h.conv (x := cdiv s N - 1) (y := s / N) (by omega) (by omega) (by omega)
  simp only [sub_add_cancel] at this
  linarith

theorem lft_rev_ge (h : EdgeOK N M lo up g) {s' s : Int} (hs : s' < s) :
    0 ≤ lft N M lo up g s + lft N M (-up) (-lo) (fun x => g (-x)) (-s') := by
  have f1 := cdiv_floor_lt s' s N h.npos hs
  have hlu := h.le
  have hge := le_lft h s
  by_cases c1 : s' / N < lo
  · have e1 : lft N M (-up) (-lo) (fun x => g (-x)) (-s') = M := by
      unfold lft
      rw [cdiv_neg, if_pos (by omega)]
    linarith
  by_cases c2 : cdiv s N > up
  · have e2 : lft N M lo up g s = M := by simp [lft, c2]
    have := le_lft h.rev (-s')
    linarith
  have e1 : lft N M (-up) (-lo) (fun x => g (-x)) (-s') = g (s' / N) - g (s' / N + 1) := by
    unfold lft
    rw [cdiv_neg, if_neg (by omega), if_neg (by omega)]
    simp only [neg_neg]
    rw [show -(-(s' / N) - 1) = s' / N + 1 by ring]
  have e2 : lft N M lo up g s = g (cdiv s N) - g (cdiv s N - 1) := by
    have h1 : ¬ cdiv s N - 1 < lo := by omega
    simp [lft, h1, c2]
  rw [e1, e2]
  have := convex_slope h.conv (x := s' / N) (y := cdiv s N - 1) (by omega) (by omega) (by omega)
  simp only [sub_add_cancel] at this
  linarith

end
end AHO
