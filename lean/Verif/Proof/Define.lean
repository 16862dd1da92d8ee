import Verif.Model.Define
import Verif.Proof.Basic
import Verif.Proof.Slope
/-!
# `partition_point`, `pre_processing`, `min`, `reverse`, `merge`
-/

namespace AHO
open Spec
set_option linter.unusedSectionVars false

/-- `partition_point` for an arbitrary predicate: a boundary is found. -/
theorem partitionPoint_spec {imax : Int} {pred : Int → Res Bool} {P : Int → Bool} :
    ∀ {fuel k : Nat} {l r : Int}, k < fuel → l ≤ r → r - l < 2 ^ k → -imax - 1 ≤ l → r ≤ imax → r - l ≤ imax →
      (∀ x, l ≤ x → x < r → pred x = .ok (P x)) →
      ∃ p, partitionPoint imax pred fuel l r = .ok p ∧ l ≤ p ∧ p ≤ r ∧ (p = l ∨ P (p - 1) = true) ∧
        (p = r ∨ P p = false) := by
  intro fuel
  induction fuel with
  | zero => intro k l r h; omega
  | succ fuel ih =>
    intro k l r hk hlr hd hl hr hw hp
    unfold partitionPoint
    by_cases h : l = r
    · subst h; exact ⟨l, by simp, le_rfl, le_rfl, .inl rfl, .inl rfl⟩
    · rw [if_pos h]
      obtain ⟨k, rfl⟩ : ∃ m, k = m + 1 := by
        cases k with
        | zero => simp at hd; omega
        | succ m => exact ⟨m, rfl⟩
      have hpow : (2 : Int) ^ (k + 1) = 2 * 2 ^ k := by rw [pow_succ]; ring
      have hdiv : (r - l).tdiv 2 = (r - l) / 2 := Int.tdiv_eq_ediv_of_nonneg (by omega)
      set m := l + (r - l) / 2 with hm
      rw [ck_ok (by omega) hw, ok_bind, hdiv, ck_ok (by omega) (by omega), ok_bind,
        hp m (by omega) (by omega), ok_bind]
      cases hP : P m with
      | true =>
        simp only [if_true]
        rw [ck_ok (by omega) (by omega), ok_bind]
        obtain ⟨p, e1, e2, e3, e4, e5⟩ := ih (k := k) (l := m + 1) (r := r) (by omega) (by omega) (by omega) (by omega)
          hr (by omega) (fun x h1 h2 => hp x (by omega) h2)
        refine ⟨p, e1, by omega, e3, ?_, e5⟩
        rcases e4 with rfl | e4
        · right; rw [add_sub_cancel_right]; exact hP
        · exact .inr e4
      | false =>
        simp only [if_false, Bool.false_eq_true]
        obtain ⟨p, e1, e2, e3, e4, e5⟩ := ih (k := k) (l := l) (r := m) (by omega) (by omega) (by omega) hl
          (by omega) (by omega) (fun x h1 h2 => hp x h1 (by omega))
        refine ⟨p, e1, e2, by omega, e4, ?_⟩
        rcases e5 with rfl | e5
        · exact .inr hP
        · exact .inr e5

/-- `partition_point` for a predicate which is true first and false afterwards. -/
theorem partitionPoint_mono {imax : Int} {pred : Int → Res Bool} {P : Int → Bool}
    {fuel k : Nat} {l r : Int} (hk : k < fuel) (hlr : l ≤ r) (hd : r - l < 2 ^ k) (hl : -imax - 1 ≤ l) (hr : r ≤ imax)
    (hw : r - l ≤ imax) (hp : ∀ x, l ≤ x → x < r → pred x = .ok (P x))
    (hm : ∀ x y, l ≤ x → x ≤ y → y < r → P y = true → P x = true) :
    ∃ p, partitionPoint imax pred fuel l r = .ok p ∧ l ≤ p ∧ p ≤ r ∧ (∀ x, l ≤ x → x < p → P x = true) ∧
      (∀ x, p ≤ x → x < r → P x = false) := by
  obtain ⟨p, e1, e2, e3, e4, e5⟩ := partitionPoint_spec hk hlr hd hl hr hw hp
  refine ⟨p, e1, e2, e3, fun x h1 h2 => ?_, fun x h1 h2 => ?_⟩
  · rcases e4 with rfl | e4
    · omega
    · exact hm x (p - 1) h1 (by omega) (by omega) e4
  · rcases e5 with rfl | e5
    · omega
    · cases hx : P x with
      | false => rfl
      | true => rw [hm p x e2 h1 h2 hx] at e5; exact absurd e5 (by simp)

section
variable {K : Type} [Field K] [LinearOrder K] [IsStrictOrderedRing K]

/-- the values which a callback returns on `[l, u]` -/
def Fn.Is (fn : Fn K) (g : Int → K) (l u : Int) : Prop := ∀ x, l ≤ x → x ≤ u → fn x = .ok (g x)

/-- `[l, u]` fits into an `int`, its length too, and its length has at most `k` bits -/
structure Fits (imax : Int) (k : Nat) (l u : Int) : Prop where
  le : l ≤ u
  lo : -imax - 1 ≤ l
  hi : u ≤ imax
  width : u - l ≤ imax
  bits : u - l < 2 ^ k

theorem _root_.AHO.Spec.Convex.valley {g : Int → K} {l u : Int} (hc : Convex g l u) : Valley g l u := by
  intro x y hx hxy hy h
  have := convex_slope hc hx hxy hy
  linarith

theorem minPoint_spec {imax : Int} {fn : Fn K} {g : Int → K} {fuel k : Nat} {l u : Int} (hk : k < fuel)
    (hf : Fits imax k l u) (hg : fn.Is g l u) (hc : Valley g l u) :
    ∃ p, partitionPoint imax (descends imax fn) fuel l u = .ok p ∧ l ≤ p ∧ p ≤ u ∧
      (∀ x, l ≤ x → x < p → g (x + 1) < g x) ∧ (∀ x, p ≤ x → x < u → g x ≤ g (x + 1)) := by
  have h1 := hf.lo
  have h2 := hf.hi
  obtain ⟨p, e1, e2, e3, e4, e5⟩ := partitionPoint_mono (imax := imax) (pred := descends imax fn)
    (P := fun x => decide (g (x + 1) < g x)) hk hf.le hf.bits hf.lo hf.hi hf.width
    (by
      intro x hx hx'
      unfold descends
      rw [hg x hx hx'.le, ok_bind, ck_ok (by omega) (by omega), ok_bind, hg (x + 1) (by omega) (by omega), ok_bind])
    (by
      intro x y hx hxy hy hP
      simp only [decide_eq_true_eq] at hP ⊢
      exact lt_of_not_ge fun h => not_le_of_gt hP (hc x y hx hxy (by omega) h))
  refine ⟨p, e1, e2, e3, fun x a b => by simpa using e4 x a b, fun x a b => by simpa using e5 x a b⟩

theorem down_le {g : Int → K} {l p : Int} (h : ∀ x, l ≤ x → x < p → g (x + 1) < g x) {x : Int} (hx : l ≤ x)
    (hp : x ≤ p) : g p ≤ g x := by
  obtain ⟨k, rfl⟩ : ∃ k : Nat, p = x + k := ⟨(p - x).toNat, by omega⟩
  clear hp
  induction k with
  | zero => simp
  | succ k ih =>
    have h1 := h (x + k) (by omega) (by push_cast; omega)
    have h2 := ih (fun y a b => h y a (by push_cast; omega))
    push_cast
    rw [← add_assoc]
    linarith

theorem up_le {g : Int → K} {p u : Int} (h : ∀ x, p ≤ x → x < u → g x ≤ g (x + 1)) {x y : Int} (hx : p ≤ x)
    (hxy : x ≤ y) (hy : y ≤ u) : g x ≤ g y := by
  obtain ⟨k, rfl⟩ : ∃ k : Nat, y = x + k := ⟨(y - x).toNat, by omega⟩
  clear hxy
  induction k with
  | zero => simp
  | succ k ih =>
    push_cast at hy
    have h1 := h (x + k) (by omega) (by omega)
    have h2 := ih (by omega)
    push_cast
    rw [← add_assoc]
    linarith

/-- `OmegaLimit::min`, with a point where the minimum is attained -/
theorem minimum_valley {imax : Int} {e : OmegaLimit K} {g : Int → K} {fuel k : Nat} (hk : k < fuel)
    (hf : Fits imax k e.l e.u) (hg : e.fn.Is g e.l e.u) (hc : Valley g e.l e.u) :
    ∃ p, e.minimum imax fuel = .ok (g p) ∧ e.l ≤ p ∧ p ≤ e.u ∧ ∀ x, e.l ≤ x → x ≤ e.u → g p ≤ g x := by
  obtain ⟨p, e1, e2, e3, e4, e5⟩ := minPoint_spec hk hf hg hc
  refine ⟨p, ?_, e2, e3, fun x h1 h2 => ?_⟩
  · unfold OmegaLimit.minimum
    rw [e1, ok_bind, hg p e2 e3]
  · rcases le_total x p with h | h
    · exact down_le e4 h1 h
    · exact up_le e5 le_rfl h h2

theorem minimum_spec {imax : Int} {e : OmegaLimit K} {g : Int → K} {fuel k : Nat} (hk : k < fuel)
    (hf : Fits imax k e.l e.u) (hg : e.fn.Is g e.l e.u) (hc : Convex g e.l e.u) :
    ∃ p, e.minimum imax fuel = .ok (g p) ∧ e.l ≤ p ∧ p ≤ e.u ∧ ∀ x, e.l ≤ x → x ≤ e.u → g p ≤ g x :=
  minimum_valley hk hf hg hc.valley

/-- `OmegaLimit::pre_processing`: the new callback is `g'`, which is the least value of `g` on
`[max l x, u]`; it is evaluated only inside `[l, u]`, and it is convex if `g` is. -/
theorem preProcessing_valley {imax : Int} {e : OmegaLimit K} {g : Int → K} {fuel k : Nat} (hk : k < fuel)
    (hf : Fits imax k e.l e.u) (hg : e.fn.Is g e.l e.u) (hc : Valley g e.l e.u) :
    ∃ fn' g', e.preProcessing imax fuel = .ok { e with fn := fn' } ∧
      (∀ x, x ≤ e.u → fn' x = .ok (g' x)) ∧
      (∀ x, x ≤ e.u → ∃ y, e.l ≤ y ∧ x ≤ y ∧ y ≤ e.u ∧ g' x = g y) ∧
      (∀ x y, x ≤ y → e.l ≤ y → y ≤ e.u → g' x ≤ g y) ∧
      (Convex g e.l e.u → ∀ l', Convex g' l' e.u) := by
  obtain ⟨p, e1, e2, e3, e4, e5⟩ := minPoint_spec hk hf hg hc
  refine ⟨fun x => e.fn (max p x), fun x => g (max p x), ?_, ?_, ?_, ?_, ?_⟩
  · unfold OmegaLimit.preProcessing
    rw [e1, ok_bind]
  · intro x hx
    exact hg _ (by omega) (by omega)
  · intro x hx
    exact ⟨max p x, by omega, by omega, by omega, rfl⟩
  · intro x y hxy hl hu
    show g (max p x) ≤ g y
    rcases le_total y p with h | h
    · rw [max_eq_left (by omega)]; exact down_le e4 hl h
    · exact up_le e5 (by omega) (by omega) hu
  · intro hc l' x hx hu
    show g (max p (x + 1)) - g (max p x) ≤ g (max p (x + 2)) - g (max p (x + 1))
    by_cases h1 : p ≤ x
    · rw [max_eq_right (by omega), max_eq_right h1, max_eq_right (by omega)]
      exact hc x (by omega) hu
    · rw [max_eq_left (show x ≤ p by omega), max_eq_left (show x + 1 ≤ p by omega), sub_self]
      have := up_le e5 (x := p) (y := max p (x + 2)) le_rfl (by omega) (by omega)
      linarith

theorem preProcessing_spec {imax : Int} {e : OmegaLimit K} {g : Int → K} {fuel k : Nat} (hk : k < fuel)
    (hf : Fits imax k e.l e.u) (hg : e.fn.Is g e.l e.u) (hc : Convex g e.l e.u) :
    ∃ fn' g', e.preProcessing imax fuel = .ok { e with fn := fn' } ∧
      (∀ x, x ≤ e.u → fn' x = .ok (g' x)) ∧
      (∀ x, x ≤ e.u → ∃ y, e.l ≤ y ∧ x ≤ y ∧ y ≤ e.u ∧ g' x = g y) ∧
      (∀ x y, x ≤ y → e.l ≤ y → y ≤ e.u → g' x ≤ g y) ∧
      (∀ l', Convex g' l' e.u) := by
  obtain ⟨fn', g', h1, h2, h3, h4, h5⟩ := preProcessing_valley hk hf hg hc.valley
  exact ⟨fn', g', h1, h2, h3, h4, h5 hc⟩

theorem reverse_spec {imax : Int} {e : OmegaLimit K} (h1 : -imax ≤ e.l) (h2 : e.l ≤ e.u) (h3 : e.u ≤ imax) :
    ∃ fn', e.reverse imax = .ok { l := -e.u, u := -e.l, fn := fn', i := e.j, j := e.i } ∧
      ∀ g, e.fn.Is g e.l e.u → fn'.Is (fun x => g (-x)) (-e.u) (-e.l) := by
  refine ⟨fun x => ck imax (-x) >>= e.fn, ?_, fun g hg x a b => ?_⟩
  · unfold OmegaLimit.reverse
    rw [ck_ok (by omega) (by omega), ok_bind, ck_ok (by omega) (by omega), ok_bind]
  · show (ck imax (-x) >>= e.fn) = _
    rw [ck_ok (by omega) (by omega), ok_bind, hg _ (by omega) (by omega)]

theorem merge_spec {e o : OmegaLimit K} (hi : e.i = o.i) (hj : e.j = o.j) :
    ∃ fn', e.merge o = .ok ({ l := max e.l o.l, u := min e.u o.u, fn := fn', i := e.i, j := e.j },
        decide (min e.u o.u < max e.l o.l)) ∧
      ∀ g g', e.fn.Is g e.l e.u → o.fn.Is g' o.l o.u →
        fn'.Is (fun x => g x + g' x) (max e.l o.l) (min e.u o.u) := by
  refine ⟨fun x => do
    let a ← e.fn x
    let b ← o.fn x
    .ok (a + b), ?_, fun g g' hg hg' x a b => ?_⟩
  · unfold OmegaLimit.merge
    dsimp only
    rw [if_pos ⟨hi, hj⟩]
    congr 2
    by_cases h : max e.l o.l ≤ min e.u o.u
    · rw [decide_eq_true h, decide_eq_false (by omega)]; rfl
    · rw [decide_eq_false h, decide_eq_true (by omega)]; rfl
  · show (e.fn x >>= _) = _
    rw [hg x (by omega) (by omega), ok_bind, hg' x (by omega) (by omega), ok_bind]

theorem convex_add {g g' : Int → K} {l u l' u' : Int} (h : Convex g l u) (h' : Convex g' l' u') :
    Convex (fun x => g x + g' x) (max l l') (min u u') := by
  intro x a b
  have h1 := h x (by omega) (by omega)
  have h2 := h' x (by omega) (by omega)
  show g (x + 1) + g' (x + 1) - (g x + g' x) ≤ g (x + 2) + g' (x + 2) - (g (x + 1) + g' (x + 1))
  linarith

theorem convex_sub_linear {g : Int → K} {l u : Int} (h : Convex g l u) (c : K) :
    Convex (fun x => g x - c * (x : K)) l u := by
  intro x a b
  have h1 := h x a b
  show g (x + 1) - c * ((x + 1 : Int) : K) - (g x - c * (x : K)) ≤
    g (x + 2) - c * ((x + 2 : Int) : K) - (g (x + 1) - c * ((x + 1 : Int) : K))
  push_cast
  linarith

/-- a convex function attains its maximum at an end point -/
theorem convex_le_max {g : Int → K} {l u : Int} (h : Convex g l u) {x : Int} (hx : l ≤ x) (hu : x ≤ u) :
    g x ≤ max (g l) (g u) := by
  by_cases hc : ∃ y, l ≤ y ∧ y + 1 ≤ x ∧ g y < g (y + 1)
  · obtain ⟨y, y1, y2, y3⟩ := hc
    refine le_max_of_le_right (up_le (p := y) (fun z h1 h2 => ?_) (by omega) hu le_rfl)
    have := convex_slope h y1 h1 (by omega)
    linarith
  · refine le_max_of_le_left ?_
    have h' : ∀ y, l ≤ y → y < x → g (y + 1) ≤ g y := fun y h1 h2 => by
      by_contra h3; exact hc ⟨y, h1, by omega, not_le.1 h3⟩
    obtain ⟨k, rfl⟩ : ∃ k : Nat, x = l + k := ⟨(x - l).toNat, by omega⟩
    clear hx hu hc
    induction k with
    | zero => simp
    | succ k ih =>
      have h1 := h' (l + k) (by omega) (by push_cast; omega)
      have h2 := ih (fun y a b => h' y a (by push_cast; omega))
      push_cast
      rw [← add_assoc]
      linarith

theorem dmax_eq (a b : K) : dmax a b = max a b := by
  unfold dmax
  split
  · rw [max_eq_right (by linarith)]
  · rw [max_eq_left (by linarith)]

end
end AHO
