import Verif.Model.SimpleSolver
import Verif.Proof.CSMin
import Verif.Proof.Solve
/-!
# `SimpleSolver`: the ternary search, and the arcs a cost is split into
-/

namespace AHO.SimpleSolver
open AHO Spec
set_option linter.unusedSectionVars false

variable {K : Type} [Field K] [LinearOrder K] [IsStrictOrderedRing K]

/-! ### Ternary search -/

theorem convex_right {g : Int → K} {l u x y z : Int} (h : Convex g l u) (hx : l ≤ x) (hxy : x < y) (hg : g x ≤ g y) (hyz : y ≤ z) (hz : z ≤ u) :
    g y ≤ g z := by
  by_cases hc : ∃ w, x ≤ w ∧ w < y ∧ g w ≤ g (w + 1)
  · obtain ⟨w, w1, w2, w3⟩ := hc
    refine up_le (p := w) (fun v h1 h2 => ?_) (by omega) hyz hz
    have := convex_slope h (show l ≤ w by omega) h1 (by omega)
    linarith
  · exfalso
    have h1 : ∀ w, x ≤ w → w < y → g (w + 1) < g w := fun w w1 w2 => by
      by_contra h2
      exact hc ⟨w, w1, w2, not_lt.1 h2⟩
    have h2 := down_le (p := y) (l := x + 1) (fun w w1 w2 => h1 w (by omega) w2) (x := x + 1) le_rfl (by omega)
    have h3 := h1 x le_rfl hxy
    linarith

theorem convex_left {g : Int → K} {l u x y z : Int} (h : Convex g l u) (hxy : x < y) (hy : y ≤ u) (hg : g y ≤ g x) (hzx : z ≤ x) (hz : l ≤ z) :
    g x ≤ g z := by
  have := convex_right (convex_rev h) (x := -y) (y := -x) (z := -z) (by omega) (by omega) (by simpa using hg) (by omega) (by omega)
  simpa using this

/-- `m` is the least value on `[l, r]` -/
def IsMin (g : Int → K) (l r : Int) (m : K) : Prop := (∃ x, l ≤ x ∧ x ≤ r ∧ g x = m) ∧ ∀ x, l ≤ x → x ≤ r → m ≤ g x

theorem IsMin.unique {g : Int → K} {l r : Int} {m m' : K} (h : IsMin g l r m) (h' : IsMin g l r m') : m = m' := by
  obtain ⟨⟨x, x1, x2, x3⟩, hx⟩ := h
  obtain ⟨⟨y, y1, y2, y3⟩, hy⟩ := h'
  refine le_antisymm ?_ ?_
  · rw [← y3]; exact hx y y1 y2
  · rw [← x3]; exact hy x x1 x2

theorem ternary_spec {imax : Int} {f : Fn K} {g : Int → K} : ∀ {fuel : Nat} {l r : Int}, r - l < fuel → l ≤ r → -imax - 1 ≤ l → r ≤ imax →
    r - l ≤ imax → f.Is g l r → Convex g l r → ∃ m, ternary imax f fuel l r = .ok m ∧ IsMin g l r m := by
  intro fuel
  induction fuel with
  | zero => intro l r h1 h2; simp at h1; omega
  | succ fuel ih =>
    intro l r h1 h2 h3 h4 h5 h6 h7
    push_cast at h1
    unfold ternary
    by_cases hlr : l < r
    · rw [if_pos hlr, ck_ok (by omega) h5, ok_bind]
      have hdiv : (r - l).tdiv 3 = (r - l) / 3 := Int.tdiv_eq_ediv_of_nonneg (by omega)
      rw [hdiv, ck_ok (by omega) (by omega), ok_bind, ck_ok (by omega) (by omega), ok_bind, h6 _ (by omega) (by omega), ok_bind,
        h6 _ (by omega) (by omega), ok_bind]
      set lm := l + (r - l) / 3 with hlm
      set rm := r - (r - l) / 3 with hrm
      have hc : ∀ l' r', l ≤ l' → r' ≤ r → Convex g l' r' := fun l' r' a b x hx hy => h7 x (by omega) (by omega)
      by_cases hg : g lm ≤ g rm
      · rw [if_pos hg, ck_ok (by omega) (by omega), ok_bind]
        obtain ⟨m, e1, ⟨x, x1, x2, x3⟩, hm⟩ := ih (l := l) (r := rm - 1) (by omega) (by omega) h3 (by omega) (by omega)
          (fun x a b => h6 x a (by omega)) (hc _ _ le_rfl (by omega))
        refine ⟨m, e1, ⟨x, x1, by omega, x3⟩, fun y y1 y2 => ?_⟩
        rcases Int.lt_or_le y rm with hy | hy
        · exact hm y y1 (by omega)
        · exact (hm lm (by omega) (by omega)).trans (hg.trans (convex_right h7 (by omega) (by omega) hg hy y2))
      · rw [if_neg hg, ck_ok (by omega) (by omega), ok_bind]
        obtain ⟨m, e1, ⟨x, x1, x2, x3⟩, hm⟩ := ih (l := lm + 1) (r := r) (by omega) (by omega) (by omega) h4 (by omega)
          (fun x a b => h6 x (by omega) b) (hc _ _ (by omega) le_rfl)
        refine ⟨m, e1, ⟨x, by omega, x2, x3⟩, fun y y1 y2 => ?_⟩
        rcases Int.lt_or_le lm y with hy | hy
        · exact hm y (by omega) y2
        · have hg' := (not_le.1 hg).le
          exact (hm rm (by omega) (by omega)).trans (hg'.trans (convex_left h7 (by omega) (by omega) hg' hy y1))
    · have : l = r := by omega
      subst this
      rw [if_neg hlr, h6 l le_rfl le_rfl, ok_bind, ok_bind]
      refine ⟨g l, by unfold dmin; simp, ⟨l, le_rfl, le_rfl, rfl⟩, fun x a b => ?_⟩
      rw [show x = l by omega]

/-- The lambda `E` of a convex cost. -/
theorem suffixMin_spec {imax : Int} {e : OmegaLimit K} {g : Int → K} (hle : e.l ≤ e.u) (hlo : -imax - 1 ≤ e.l) (hhi : e.u ≤ imax)
    (hw : e.u - e.l ≤ imax) (hg : e.fn.Is g e.l e.u) (hc : Convex g e.l e.u) :
    ∃ g' : Int → K, (∀ fuel : Nat, e.u - e.l < fuel → ∀ x, x ≤ e.u → suffixMin imax fuel e x = .ok (g' x)) ∧
      (∀ x, x ≤ e.u → ∃ y, e.l ≤ y ∧ x ≤ y ∧ y ≤ e.u ∧ g' x = g y) ∧
      (∀ x y, x ≤ y → e.l ≤ y → y ≤ e.u → g' x ≤ g y) ∧ (∀ l', Convex g' l' e.u) := by
  obtain ⟨fn', g', -, -, h3, h4, h5⟩ := preProcessing_spec (imax := imax) (e := e) (g := g) (k := Flow.bits imax) (fuel := Flow.bits imax + 1)
    (by omega) ⟨hle, hlo, hhi, hw, Flow.bits_spec (by omega)⟩ hg hc
  refine ⟨g', fun fuel hf x hx => ?_, h3, h4, h5⟩
  unfold suffixMin
  obtain ⟨m, e1, hm⟩ := ternary_spec (imax := imax) (f := e.fn) (g := g) (fuel := fuel) (l := max e.l x) (r := e.u) (by omega) (by omega)
    (by omega) hhi (by omega) (fun y a b => hg y (by omega) b) (fun y a b => hc y (by omega) b)
  rw [e1]
  congr 1
  refine hm.unique ⟨?_, fun y a b => h4 x y (by omega) (by omega) b⟩
  obtain ⟨y, y1, y2, y3, y4⟩ := h3 x hx
  exact ⟨y, by omega, y3, y4.symm⟩

/-! ### Splitting a cost -/

section split
variable {imax : Int} {f : Fn K} {g : Int → K} {l r : Int} {u v : Nat}

/-- slope to the right of `x`, continued outside the range -/
def slp (g : Int → K) (l r x : Int) : K := penal (bigM : K) l r g (x + 1) - penal (bigM : K) l r g x

theorem slp_lt (hlr : l ≤ r) {x : Int} (h : x < l) : slp g l r x = -bigM := by
  unfold slp penal
  rw [if_pos h]
  by_cases h1 : x + 1 < l
  · rw [if_pos h1]; push_cast; ring
  · rw [if_neg h1, if_neg (by omega), show x + 1 = l by omega, show l - x = 1 by omega]; push_cast; ring

theorem slp_ge (hlr : l ≤ r) {x : Int} (h : r ≤ x) : slp g l r x = bigM := by
  unfold slp penal
  rw [if_neg (by omega), if_pos (by omega), if_neg (by omega)]
  by_cases h1 : r < x
  · rw [if_pos h1]; push_cast; ring
  · rw [if_neg h1, show x = r by omega, show r + 1 - r = 1 by omega]; push_cast; ring

theorem slp_in {x : Int} (h : l ≤ x) (h' : x < r) : slp g l r x = g (x + 1) - g x := by
  unfold slp penal
  rw [if_neg (by omega), if_neg (by omega), if_neg (by omega), if_neg (by omega)]

theorem bij_spec (hlr : l ≤ r) (hf : f.Is g l r) (hr : r ≤ imax) (hl : -imax - 1 ≤ l) (x : Int) : bij imax f l r x = .ok (slp g l r x) := by
  unfold bij
  by_cases h1 : x < l
  · rw [if_pos h1, slp_lt hlr h1]
  · rw [if_neg h1]
    by_cases h2 : r ≤ x
    · rw [if_pos h2, slp_ge hlr h2]
    · rw [if_neg h2, ck_ok (by omega) (by omega), ok_bind, hf _ (by omega) (by omega), ok_bind, hf _ (by omega) (by omega), ok_bind,
        slp_in (by omega) (by omega)]

theorem slp_mono (h : EdgeOK 1 (bigM : K) l r g) {x y : Int} (hxy : x ≤ y) : slp g l r x ≤ slp g l r y := by
  have := Flow.slope_mono h (show x + 1 ≤ y + 1 by omega)
  rwa [add_sub_cancel_right, add_sub_cancel_right] at this

/-- the arcs for the integer `j` -/
def arcsAt (g : Int → K) (l r : Int) (u v : Nat) (j : Int) : List (InputEdge K) :=
  if 0 ≤ slp g l r (j - 1) then [⟨u, v, j, slp g l r j - slp g l r (j - 1)⟩]
  else if slp g l r j ≤ 0 then [⟨v, u, -j, slp g l r j - slp g l r (j - 1)⟩]
  else [⟨u, v, j, slp g l r j⟩, ⟨v, u, -j, -slp g l r (j - 1)⟩]

theorem splitAt_spec (hlr : l ≤ r) (hf : f.Is g l r) (hr : r ≤ imax) (hl : -imax ≤ l) {j : Int} (h1 : l ≤ j) (h2 : j ≤ r) :
    splitAt imax f l r u v j = .ok (arcsAt g l r u v j) := by
  unfold splitAt arcsAt
  rw [ck_ok (by omega) (by omega), ok_bind, bij_spec hlr hf hr (by omega), ok_bind, bij_spec hlr hf hr (by omega), ok_bind]
  by_cases c1 : 0 ≤ slp g l r (j - 1)
  · rw [if_pos c1, if_pos c1]
  · rw [if_neg c1, if_neg c1, ck_ok (by omega) (by omega), ok_bind]
    by_cases c2 : slp g l r j ≤ 0
    · rw [if_pos c2, if_pos c2]
    · rw [if_neg c2, if_neg c2]

/-- the arcs for `l, …, l + k - 1` -/
def arcsTo (g : Int → K) (l r : Int) (u v : Nat) : Nat → List (InputEdge K)
  | 0 => []
  | k + 1 => arcsTo g l r u v k ++ arcsAt g l r u v (l + k)

theorem split_spec (hlr : l ≤ r) (hf : f.Is g l r) (hr : r + 1 ≤ imax) (hl : -imax ≤ l) {fuel : Nat} (hfuel : r - l + 1 < fuel)
    (edge : List (InputEdge K)) :
    split imax fuel f l r u v edge = .ok (edge ++ arcsTo g l r u v (r - l + 1).toNat) := by
  unfold split
  have key : ∀ (c : Nat) (fuel : Nat) (k : Nat), c < fuel → k + c = (r - l + 1).toNat →
      whileLoop (fun (s : Int × List (InputEdge K)) => .ok (decide (s.1 ≤ r)))
        (fun s => do
          let es ← splitAt imax f l r u v s.1
          let j ← ck imax (s.1 + 1)
          .ok (j, s.2 ++ es)) fuel (l + k, edge ++ arcsTo g l r u v k) =
        .ok (r + 1, edge ++ arcsTo g l r u v (r - l + 1).toNat) := by
    intro c
    induction c with
    | zero =>
      intro fuel k h1 h2
      obtain ⟨fuel, rfl⟩ : ∃ m, fuel = m + 1 := ⟨fuel - 1, by omega⟩
      unfold whileLoop
      dsimp only
      rw [ok_bind, if_neg (by simp; omega), show l + (k : Int) = r + 1 by omega, show k = (r - l + 1).toNat by omega]
    | succ c ih =>
      intro fuel k h1 h2
      obtain ⟨fuel, rfl⟩ : ∃ m, fuel = m + 1 := ⟨fuel - 1, by omega⟩
      unfold whileLoop
      dsimp only
      rw [ok_bind, if_pos (by simp; omega), splitAt_spec hlr hf (by omega) hl (by omega) (by omega), ok_bind,
        ck_ok (by omega) (by omega), ok_bind, ok_bind]
      have := ih fuel (k + 1) (by omega) (by omega)
      rw [show arcsTo g l r u v (k + 1) = arcsTo g l r u v k ++ arcsAt g l r u v (l + k) from rfl, ← List.append_assoc] at this
      push_cast at this
      rw [← add_assoc] at this
      exact this
  have := key (r - l + 1).toNat fuel 0 (by omega) (by omega)
  rw [show arcsTo g l r u v 0 = [] from rfl, Nat.cast_zero, add_zero, List.append_nil] at this
  rw [this, ok_bind]

/-! What the arcs cost -/

theorem slackCost_append (A B : List (FlowArc K)) (π : Nat → Int) : slackCost (A ++ B) π = slackCost A π + slackCost B π := by
  unfold slackCost; rw [List.map_append, List.sum_append]

theorem slackCost_at (π : Nat → Int) (j : Int) :
    slackCost ((arcsAt g l r u v j).map InputEdge.arc) π =
      (max (slp g l r j) 0 - max (slp g l r (j - 1)) 0) * ((max 0 (π u - π v - j) : Int) : K) +
      (max (-slp g l r (j - 1)) 0 - max (-slp g l r j) 0) * ((max 0 (j - (π u - π v)) : Int) : K) ∨
    slp g l r j < slp g l r (j - 1) := by
  by_cases hs : slp g l r j < slp g l r (j - 1)
  · exact .inr hs
  · left
    have hs := not_lt.1 hs
    unfold arcsAt
    by_cases c1 : 0 ≤ slp g l r (j - 1)
    · rw [if_pos c1, max_eq_left (c1.trans hs), max_eq_left c1, max_eq_right (show -slp g l r (j - 1) ≤ 0 by linarith), max_eq_right (show -slp g l r j ≤ 0 by linarith)]
      simp only [slackCost, InputEdge.arc, List.map_cons, List.map_nil, List.sum_cons, List.sum_nil]
      ring
    · rw [if_neg c1]
      have c1 := not_le.1 c1
      have e1 : π v - π u - -j = j - (π u - π v) := by ring
      by_cases c2 : slp g l r j ≤ 0
      · rw [if_pos c2, max_eq_right c2, max_eq_right c1.le, max_eq_left (show 0 ≤ -slp g l r (j - 1) by linarith),
          max_eq_left (show 0 ≤ -slp g l r j by linarith)]
        simp only [slackCost, InputEdge.arc, List.map_cons, List.map_nil, List.sum_cons, List.sum_nil, e1]
        ring
      · rw [if_neg c2]
        have c2 := not_le.1 c2
        rw [max_eq_left c2.le, max_eq_right c1.le, max_eq_left (show 0 ≤ -slp g l r (j - 1) by linarith),
          max_eq_right (show -slp g l r j ≤ 0 by linarith)]
        simp only [slackCost, InputEdge.arc, List.map_cons, List.map_nil, List.sum_cons, List.sum_nil, e1]
        ring

/-- the cost of the arcs for `l, …, l + k - 1` at the difference `x` -/
def termTo (g : Int → K) (l r x : Int) : Nat → K
  | 0 => 0
  | k + 1 => termTo g l r x k +
      ((max (slp g l r (l + k)) 0 - max (slp g l r (l + k - 1)) 0) * ((max 0 (x - (l + k)) : Int) : K) +
      (max (-slp g l r (l + k - 1)) 0 - max (-slp g l r (l + k)) 0) * ((max 0 (l + k - x) : Int) : K))

theorem slackCost_to (h : EdgeOK 1 (bigM : K) l r g) (π : Nat → Int) (k : Nat) :
    slackCost ((arcsTo g l r u v k).map InputEdge.arc) π = termTo g l r (π u - π v) k := by
  induction k with
  | zero => simp [arcsTo, termTo, slackCost]
  | succ k ih =>
    unfold arcsTo termTo
    rw [List.map_append, slackCost_append, ih]
    rcases slackCost_at (g := g) (l := l) (r := r) (u := u) (v := v) π (l + k) with h1 | h1
    · rw [h1]
    · exact absurd (slp_mono h (show l + (k : Int) - 1 ≤ l + k by omega)) (not_le.2 h1)

theorem termTo_step (x : Int) (k : Nat) :
    termTo g l r (x + 1) k - termTo g l r x k =
      if x < l then max (-slp g l r (l + k - 1)) 0 - max (-slp g l r (l - 1)) 0
      else if x < l + k then max (slp g l r x) 0 - max (slp g l r (l - 1)) 0 - (max (-slp g l r x) 0 - max (-slp g l r (l + k - 1)) 0)
      else max (slp g l r (l + k - 1)) 0 - max (slp g l r (l - 1)) 0 := by
  induction k with
  | zero =>
    simp only [termTo, Nat.cast_zero, add_zero, sub_self]
    by_cases h : x < l
    · rw [if_pos h]
    · rw [if_neg h, if_neg h]
  | succ k ih =>
    unfold termTo
    have e0 : l + ((k + 1 : Nat) : Int) - 1 = l + k := by push_cast; ring
    rw [e0, show l + ((k + 1 : Nat) : Int) = l + (k + 1) by push_cast; ring]
    by_cases h1 : x < l
    · rw [if_pos h1] at ih
      rw [if_pos h1, max_eq_left (show x + 1 - (l + (k : Int)) ≤ 0 by omega), max_eq_left (show x - (l + (k : Int)) ≤ 0 by omega),
        max_eq_right (show 0 ≤ l + (k : Int) - (x + 1) by omega), max_eq_right (show 0 ≤ l + (k : Int) - x by omega)]
      push_cast
      linarith
    · rw [if_neg h1] at ih ⊢
      by_cases h2 : x < l + k
      · rw [if_pos h2] at ih
        rw [if_pos (by omega), max_eq_left (show x + 1 - (l + (k : Int)) ≤ 0 by omega), max_eq_left (show x - (l + (k : Int)) ≤ 0 by omega),
          max_eq_right (show 0 ≤ l + (k : Int) - (x + 1) by omega), max_eq_right (show 0 ≤ l + (k : Int) - x by omega)]
        push_cast
        linarith
      · rw [if_neg h2] at ih
        rw [max_eq_right (show 0 ≤ x + 1 - (l + (k : Int)) by omega), max_eq_right (show 0 ≤ x - (l + (k : Int)) by omega),
          max_eq_left (show l + (k : Int) - (x + 1) ≤ 0 by omega), max_eq_left (show l + (k : Int) - x ≤ 0 by omega)]
        by_cases h3 : x < l + (k + 1)
        · rw [if_pos h3, show x = l + k by omega]
          push_cast
          rw [show x = l + k by omega] at ih
          linarith
        · rw [if_neg h3]
          push_cast
          linarith

theorem bigM_pos : (0 : K) < bigM := by unfold bigM; norm_num

theorem const_of_step {h : Int → K} (hs : ∀ x, h (x + 1) = h x) (x y : Int) : h x = h y := by
  have h0 : ∀ x, h x = h 0 := by
    intro x
    induction x using Int.induction_on with
    | zero => rfl
    | succ i ih => rw [hs]; exact ih
    | pred i ih => rw [← ih, ← hs (-(i : Int) - 1)]; congr 1; ring
  rw [h0 x, h0 y]

theorem termTo_eq (h : EdgeOK 1 (bigM : K) l r g) {z : Int} (hz1 : l ≤ z) (hz2 : z ≤ r) (hz : ∀ x, l ≤ x → x ≤ r → g z ≤ g x) (x : Int) :
    termTo g l r x (r - l + 1).toNat = penal (bigM : K) l r g x - g z := by
  have hM := bigM_pos (K := K)
  have hw : (((r - l + 1).toNat : Nat) : Int) = r - l + 1 := by have := h.le; omega
  have step : ∀ x, termTo g l r (x + 1) (r - l + 1).toNat - termTo g l r x (r - l + 1).toNat = slp g l r x := by
    intro x
    rw [termTo_step, hw, show l + (r - l + 1) - 1 = r by ring, show l + (r - l + 1) = r + 1 by ring, slp_lt h.le (show l - 1 < l by omega),
      slp_ge h.le (le_refl r), neg_neg, max_eq_right (show -(bigM : K) ≤ 0 by linarith), max_eq_left hM.le]
    by_cases h1 : x < l
    · rw [if_pos h1, slp_lt h.le h1]; ring
    · rw [if_neg h1]
      by_cases h2 : x < r + 1
      · rw [if_pos h2]
        rcases le_total 0 (slp g l r x) with h3 | h3
        · rw [max_eq_left h3, max_eq_right (by linarith)]; ring
        · rw [max_eq_right h3, max_eq_left (by linarith)]; ring
      · rw [if_neg h2, slp_ge h.le (by omega)]; ring
  have s1 : slp g l r (z - 1) ≤ 0 := by
    by_cases hc : z = l
    · rw [slp_lt h.le (by omega)]; linarith
    · rw [slp_in (by omega) (by omega), sub_add_cancel]
      linarith [hz (z - 1) (by omega) (by omega)]
  have s2 : 0 ≤ slp g l r z := by
    by_cases hc : z = r
    · rw [slp_ge h.le (by omega)]; exact hM.le
    · rw [slp_in (by omega) (by omega)]
      linarith [hz (z + 1) (by omega) (by omega)]
  have zero : ∀ k, termTo g l r z k = 0 := by
    intro k
    induction k with
    | zero => rfl
    | succ k ih =>
      unfold termTo
      rw [ih, zero_add]
      rcases lt_trichotomy z (l + k) with hk | hk | hk
      · have h1 := slp_mono h (show z ≤ l + k - 1 by omega)
        have h2 := slp_mono h (show z ≤ l + k by omega)
        rw [max_eq_left (show z - (l + (k : Int)) ≤ 0 by omega), max_eq_right (show -slp g l r (l + k - 1) ≤ 0 by linarith),
          max_eq_right (show -slp g l r (l + k) ≤ 0 by linarith)]
        simp
      · rw [← hk]; simp
      · have h1 := slp_mono h (show l + k - 1 ≤ z - 1 by omega)
        have h2 := slp_mono h (show l + k ≤ z - 1 by omega)
        rw [max_eq_left (show l + (k : Int) - z ≤ 0 by omega), max_eq_right (show slp g l r (l + k - 1) ≤ 0 by linarith),
          max_eq_right (show slp g l r (l + k) ≤ 0 by linarith)]
        simp
  have hc := const_of_step (h := fun x => termTo g l r x (r - l + 1).toNat - penal (bigM : K) l r g x)
    (by
      intro x
      have := step x
      unfold slp at this
      linarith) x z
  rw [zero, show penal (bigM : K) l r g z = g z by unfold penal; rw [if_neg (by omega), if_neg (by omega)]] at hc
  linarith

/-- What is needed about the arcs a cost is split into. -/
structure Parts (p : Pair K) (A : List (InputEdge K)) : Prop where
  slack : ∀ π, slackCost (A.map InputEdge.arc) π = penal (bigM : K) p.l p.u p.B (π p.i - π p.j) - mnP p
  ends : ∀ a ∈ A, (a.u = p.i ∧ a.v = p.j) ∨ (a.u = p.j ∧ a.v = p.i)
  nonneg : ∀ a ∈ A, 0 ≤ a.capacity
  cost : ∀ a ∈ A, (p.l ≤ a.cost ∧ a.cost ≤ p.u) ∨ (p.l ≤ -a.cost ∧ -a.cost ≤ p.u)
  opp : ∀ a ∈ A, ∃ b ∈ A, -a.cost ≤ b.cost
  len : (A.length : Int) ≤ 2 * (p.u - p.l + 1)

theorem arcsAt_mem {a : InputEdge K} {j : Int} (h : a ∈ arcsAt g l r u v j) (hm : slp g l r (j - 1) ≤ slp g l r j) :
    0 ≤ a.capacity ∧ ((a.u = u ∧ a.v = v ∧ a.cost = j) ∨ (a.u = v ∧ a.v = u ∧ a.cost = -j)) := by
  unfold arcsAt at h
  by_cases c1 : 0 ≤ slp g l r (j - 1)
  · rw [if_pos c1, List.mem_singleton] at h
    subst h
    exact ⟨by dsimp only; linarith, .inl ⟨rfl, rfl, rfl⟩⟩
  · rw [if_neg c1] at h
    by_cases c2 : slp g l r j ≤ 0
    · rw [if_pos c2, List.mem_singleton] at h
      subst h
      exact ⟨by dsimp only; linarith, .inr ⟨rfl, rfl, rfl⟩⟩
    · rw [if_neg c2, List.mem_cons, List.mem_singleton] at h
      rcases h with rfl | rfl
      · exact ⟨(not_le.1 c2).le, .inl ⟨rfl, rfl, rfl⟩⟩
      · exact ⟨by dsimp only; linarith [not_le.1 c1], .inr ⟨rfl, rfl, rfl⟩⟩

theorem arcsAt_len (j : Int) : (arcsAt g l r u v j).length ≤ 2 := by
  unfold arcsAt
  split
  · simp
  · split <;> simp

theorem mem_arcsTo {a : InputEdge K} {k : Nat} : a ∈ arcsTo g l r u v k ↔ ∃ i : Nat, i < k ∧ a ∈ arcsAt g l r u v (l + i) := by
  induction k with
  | zero => simp [arcsTo]
  | succ k ih =>
    unfold arcsTo
    rw [List.mem_append, ih]
    constructor
    · rintro (⟨i, h1, h2⟩ | h)
      · exact ⟨i, by omega, h2⟩
      · exact ⟨k, by omega, h⟩
    · rintro ⟨i, h1, h2⟩
      by_cases hk : i = k
      · subst hk; exact .inr h2
      · exact .inl ⟨i, by omega, h2⟩

theorem arcsTo_len (k : Nat) : (arcsTo g l r u v k).length ≤ 2 * k := by
  induction k with
  | zero => simp [arcsTo]
  | succ k ih =>
    unfold arcsTo
    have := arcsAt_len (g := g) (l := l) (r := r) (u := u) (v := v) (l + k)
    rw [List.length_append]
    omega

theorem parts_of (p : Pair K) (h : EdgeOK 1 (bigM : K) p.l p.u p.B) (hm : IsMinCost p (mnP p)) :
    Parts p (arcsTo p.B p.l p.u p.i p.j (p.u - p.l + 1).toNat) := by
  have hM := bigM_pos (K := K)
  have hle := h.le
  have hmem : ∀ {a}, a ∈ arcsTo p.B p.l p.u p.i p.j (p.u - p.l + 1).toNat → ∃ j, p.l ≤ j ∧ j ≤ p.u ∧ 0 ≤ a.capacity ∧
      ((a.u = p.i ∧ a.v = p.j ∧ a.cost = j) ∨ (a.u = p.j ∧ a.v = p.i ∧ a.cost = -j)) := by
    intro a ha
    obtain ⟨i, h1, h2⟩ := mem_arcsTo.1 ha
    exact ⟨p.l + i, by omega, by omega, arcsAt_mem h2 (slp_mono h (by omega))⟩
  have hfirst : ∃ b ∈ arcsTo p.B p.l p.u p.i p.j (p.u - p.l + 1).toNat, b.cost = -p.l := by
    have : ∃ b ∈ arcsAt p.B p.l p.u p.i p.j (p.l + (0 : Nat)), b.cost = -p.l := by
      unfold arcsAt
      simp only [Nat.cast_zero, add_zero]
      rw [if_neg (by rw [slp_lt hle (by omega)]; linarith)]
      split
      · exact ⟨_, List.mem_cons_self, rfl⟩
      · exact ⟨_, List.mem_cons_of_mem _ List.mem_cons_self, rfl⟩
    obtain ⟨b, b1, b2⟩ := this
    exact ⟨b, mem_arcsTo.2 ⟨0, by omega, b1⟩, b2⟩
  have hlast : ∃ b ∈ arcsTo p.B p.l p.u p.i p.j (p.u - p.l + 1).toNat, b.cost = p.u := by
    have : ∃ b ∈ arcsAt p.B p.l p.u p.i p.j p.u, b.cost = p.u := by
      unfold arcsAt
      split
      · exact ⟨_, List.mem_cons_self, rfl⟩
      · rw [if_neg (by rw [slp_ge hle le_rfl]; linarith)]
        exact ⟨_, List.mem_cons_self, rfl⟩
    obtain ⟨b, b1, b2⟩ := this
    exact ⟨b, mem_arcsTo.2 ⟨(p.u - p.l).toNat, by omega, by rw [show p.l + ((p.u - p.l).toNat : Int) = p.u by omega]; exact b1⟩, b2⟩
  refine ⟨fun π => ?_, fun a ha => ?_, fun a ha => ?_, fun a ha => ?_, fun a ha => ?_, ?_⟩
  · obtain ⟨⟨z, z1, z2, z3⟩, z4⟩ := hm
    rw [slackCost_to h, termTo_eq h z1 z2 (by rw [z3]; exact z4), z3]
  · obtain ⟨j, -, -, -, h1 | h1⟩ := hmem ha
    · exact .inl ⟨h1.1, h1.2.1⟩
    · exact .inr ⟨h1.1, h1.2.1⟩
  · obtain ⟨j, -, -, h1, -⟩ := hmem ha
    exact h1
  · obtain ⟨j, j1, j2, -, h1 | h1⟩ := hmem ha
    · left; omega
    · right; omega
  · obtain ⟨j, j1, j2, -, h1 | h1⟩ := hmem ha
    · obtain ⟨b, b1, b2⟩ := hfirst
      exact ⟨b, b1, by omega⟩
    · obtain ⟨b, b1, b2⟩ := hlast
      exact ⟨b, b1, by omega⟩
  · have := arcsTo_len (g := p.B) (l := p.l) (r := p.u) (u := p.i) (v := p.j) (p.u - p.l + 1).toNat
    omega

end split
end AHO.SimpleSolver
