import Verif.Proof.ExactOracle
import Verif.Proof.Rounding
/-!
# `bf_solve` in floating-point arithmetic with rounding

The floating-point run does the same as the exact run on the same costs, and its sums differ from the exact ones by the rounding errors.
-/

namespace AHO
open Format Spec

namespace RSim
variable {α β γ δ : Type} {x : Res α} {y : Res β} {R R' : α → β → Prop}

theorem bind_same {x : Res α} {k : α → Res γ} {k' : α → Res δ} {R' : γ → δ → Prop} (h2 : ∀ a, x = .ok a → RSim (k a) (k' a) R') :
    RSim (x >>= k) (x >>= k') R' :=
  same.bind fun a b hx hb => by rw [hb]; exact h2 a hx

theorem whileLoop {cond : α → Res Bool} {cond' : β → Res Bool} {body : α → Res α} {body' : β → Res β} {R : α → β → Prop}
    (h1 : ∀ s s', R s s' → RSim (cond s) (cond' s') (fun b b' => b' = b)) (h2 : ∀ s s', R s s' → RSim (body s) (body' s') R) :
    ∀ (fuel : Nat) (s : α) (s' : β), R s s' → RSim (AHO.whileLoop cond body fuel s) (AHO.whileLoop cond' body' fuel s') R := by
  intro fuel
  induction fuel with
  | zero => intro s s' _; exact error
  | succ fuel ih =>
    intro s s' hs
    unfold AHO.whileLoop
    refine (h1 s s' hs).bind fun b b' _ hb => ?_
    subst hb
    cases b' with
    | false => exact ok hs
    | true =>
      simp only [if_true]
      exact (h2 s s' hs).bind fun t t' _ ht => ih t t' ht

end RSim

/-- the relative error of a rounding -/
def unit (f : Format) : ℚ := 1 / 2 ^ f.p

theorem unit_pos (f : Format) : 0 < unit f := by unfold unit; positivity

/-- a multiple of the least positive number has a relative rounding error of at most `2 ^ -p` -/
theorem round_rel {f : Format} (hp : 1 ≤ f.p) {z : ℚ} (hz : z ∈ AddSubgroup.zmultiples (pow2 f.emin)) : |f.round z - z| ≤ unit f * |z| := by
  by_cases hz0 : z = 0
  · rw [hz0, Format.round, if_pos rfl]; simp
  rcases (emin_le f z).eq_or_lt with h | h
  · obtain ⟨k, rfl⟩ := AddSubgroup.mem_zmultiples_iff.1 hz
    have h1 := round_best f (k • pow2 f.emin) k
    rw [← h, zsmul_eq_mul, sub_self, abs_zero] at h1
    rw [zsmul_eq_mul, abs_sub_comm]
    exact h1.trans (mul_nonneg (unit_pos f).le (abs_nonneg _))
  · have h1 := le_units hp hz0 h
    have h2 := nearest_le (f.units z)
    rw [abs_sub_comm, round_eq, round_dist]
    have h3 : |z| = |f.units z| * pow2 (f.lastDigit z) := by
      conv_lhs => rw [← units_mul f z, abs_mul, abs_of_pos (pow2_pos _)]
    rw [h3, ← mul_assoc]
    refine mul_le_mul_of_nonneg_right (h2.trans ?_) (pow2_pos _).le
    have h4 : (2 : ℚ) ^ f.p = 2 * 2 ^ (f.p - 1) := by
      conv_lhs => rw [← Nat.sub_add_cancel hp]
      rw [pow_succ, mul_comm]
    unfold unit
    rw [h4, div_mul_eq_mul_div, one_mul, div_le_div_iff₀ (by norm_num) (by positivity)]
    linarith

theorem round_mem (f : Format) (z : ℚ) : f.round z ∈ AddSubgroup.zmultiples (pow2 f.emin) := by
  rw [round_eq]
  obtain ⟨k, hk⟩ : ∃ k : Nat, f.lastDigit z = f.emin + k := ⟨(f.lastDigit z - f.emin).toNat, by have := emin_le f z; omega⟩
  refine AddSubgroup.mem_zmultiples_iff.2 ⟨nearest (f.units z) * 2 ^ k, ?_⟩
  rw [hk, pow2_add, pow2_nat, zsmul_eq_mul]
  push_cast
  ring

namespace Oracle
variable {f : Format} {G : ℚ} {N : Nat}

/-- the costs: numbers of the format of size at most `G` -/
def IsCost (f : Format) (G : ℚ) (y : ℚ) : Prop := y ∈ AddSubgroup.zmultiples (pow2 f.emin) ∧ |y| ≤ G

/-- `x` is the sum of `k` costs, and `y` is what the rounded additions make of it -/
structure SumErr (f : Format) (G : ℚ) (k : Nat) (x : ℚ) (y : Flt f) : Prop where
  bd : |x| ≤ k * G
  ex : ∃ r : ℚ, y = Flt.ofRat f r ∧ r ∈ AddSubgroup.zmultiples (pow2 f.emin) ∧ |r - x| ≤ k * G * ((1 + unit f) ^ k - 1)

theorem SumErr.add (hp : 1 ≤ f.p) (hG : 0 ≤ G) (hN : N * G * (1 + unit f) ^ N < pow2 f.emax) {k : Nat} (hk : k + 1 ≤ N) {x c : ℚ} {y : Flt f}
    (h : SumErr f G k x y) (hc : IsCost f G c) : SumErr f G (k + 1) (x + c) (y + Flt.ofRat f c) := by
  obtain ⟨h1, r, rfl, h2, h3⟩ := h
  have hu := unit_pos f
  have hz := round_rel hp (AddSubgroup.add_mem _ h2 hc.1)
  set u := unit f with hudef
  set e := (1 + u) ^ k with hedef
  have he : 1 ≤ e := one_le_pow₀ (by linarith)
  have hx : |x + c| ≤ (k + 1 : ℚ) * G := (abs_add_le x c).trans (by linarith [hc.2])
  have hr : |(r + c) - (x + c)| ≤ k * G * (e - 1) := by rwa [add_sub_add_right_eq_sub]
  have hrc : |r + c| ≤ (k + 1 : ℚ) * G + k * G * (e - 1) := by
    have : r + c = (x + c) + ((r + c) - (x + c)) := by ring
    rw [this]
    exact (abs_add_le _ _).trans (by linarith)
  have herr : |f.round (r + c) - (x + c)| ≤ (k + 1 : ℚ) * G * ((1 + u) ^ (k + 1) - 1) := by
    have : f.round (r + c) - (x + c) = (f.round (r + c) - (r + c)) + ((r + c) - (x + c)) := by ring
    rw [this]
    refine (abs_add_le _ _).trans ?_
    have h5 := mul_le_mul_of_nonneg_left hrc hu.le
    rw [pow_succ, ← hedef]
    have h6 : 0 ≤ G * (e - 1) := mul_nonneg hG (by linarith)
    have h7 : 0 ≤ G * (e - 1) * u := mul_nonneg h6 hu.le
    have h8 : (k + 1 : ℚ) * G * (e * (1 + u) - 1) = u * ((k + 1 : ℚ) * G + k * G * (e - 1)) + k * G * (e - 1) + G * (e - 1) + G * (e - 1) * u + 0 := by ring
    linarith
  have hfin : |f.round (r + c)| < pow2 f.emax := by
    have : f.round (r + c) = (x + c) + (f.round (r + c) - (x + c)) := by ring
    rw [this]
    refine ((abs_add_le _ _).trans (add_le_add hx herr)).trans_lt (lt_of_le_of_lt ?_ hN)
    have h5 : (1 + u) ^ (k + 1) ≤ (1 + u) ^ N := pow_le_pow_right₀ (by linarith) hk
    have h6 : (k + 1 : ℚ) * G ≤ N * G := mul_le_mul_of_nonneg_right (by exact_mod_cast hk) hG
    calc (k + 1 : ℚ) * G + (k + 1) * G * ((1 + u) ^ (k + 1) - 1) = (k + 1 : ℚ) * G * (1 + u) ^ (k + 1) := by ring
      _ ≤ N * G * (1 + u) ^ N := mul_le_mul h6 h5 (by positivity) (by positivity)
  refine ⟨by push_cast; exact hx, f.round (r + c), ?_, round_mem _ _, by push_cast; exact herr⟩
  show Flt.mk (f.result (r + c)) = Flt.mk (.fin _)
  unfold Format.result
  dsimp only
  rw [abs_lt] at hfin
  rw [if_neg (by linarith), if_neg (by linarith)]

/-- the values of `ret` -/
def RetErr (f : Format) (E : ℚ) (a : Option ℚ) (b : Option (Flt f)) : Prop :=
  (a = none ∧ b = none) ∨ ∃ x y, a = some x ∧ b = some (Flt.ofRat f y) ∧ |y - x| ≤ E

theorem RetErr.min {E : ℚ} {a : Option ℚ} {b : Option (Flt f)} (h : RetErr f E a b) {s t : ℚ} (hs : |t - s| ≤ E) :
    RetErr f E (minRet a s) (minRet b (Flt.ofRat f t)) := by
  rcases h with ⟨rfl, rfl⟩ | ⟨x, y, rfl, rfl, h⟩
  · exact .inr ⟨s, t, rfl, rfl, hs⟩
  · unfold minRet
    rw [abs_le] at h hs
    by_cases h1 : s < x <;> by_cases h2 : t < y
    · simp only [if_pos h1, if_pos (Flt.lt_ofRat.2 h2)]
      exact .inr ⟨_, _, rfl, rfl, abs_le.2 hs⟩
    · simp only [if_pos h1, if_neg (fun h' => h2 (Flt.lt_ofRat.1 h'))]
      exact .inr ⟨_, _, rfl, rfl, abs_le.2 ⟨by linarith, by linarith⟩⟩
    · simp only [if_neg h1, if_pos (Flt.lt_ofRat.2 h2)]
      exact .inr ⟨_, _, rfl, rfl, abs_le.2 ⟨by linarith, by linarith⟩⟩
    · simp only [if_neg h1, if_neg (fun h' => h2 (Flt.lt_ofRat.1 h'))]
      exact .inr ⟨_, _, rfl, rfl, abs_le.2 h⟩

/-- the largest error of a sum of at most `N` costs -/
def sumError (f : Format) (G : ℚ) (N : Nat) : ℚ := N * G * ((1 + unit f) ^ N - 1)

theorem sumError_mono (hG : 0 ≤ G) {k : Nat} (hk : k ≤ N) : k * G * ((1 + unit f) ^ k - 1) ≤ sumError f G N := by
  have hu := unit_pos f
  have h1 : (1 + unit f) ^ k ≤ (1 + unit f) ^ N := pow_le_pow_right₀ (by linarith) hk
  have h2 : (1 : ℚ) ≤ (1 + unit f) ^ k := one_le_pow₀ (by linarith)
  have h3 : (k : ℚ) * G ≤ N * G := mul_le_mul_of_nonneg_right (by exact_mod_cast hk) hG
  exact mul_le_mul h3 (by linarith) (by linarith) (by positivity)

variable (hp : 1 ≤ f.p) (hG : 0 ≤ G) (hN : N * G * (1 + unit f) ^ N < pow2 f.emax)
include hp hG hN

theorem leaf_err {imax : Int} {v : Vec Int} {l : List (OmegaLimit ℚ)} {l' : List (OmegaLimit (Flt f))}
    (h : List.Forall₂ (OmSim (IsCost f G)) l l') : ∀ {k : Nat} {s : ℚ} {t : Flt f} {ret : Option ℚ} {ret' : Option (Flt f)}, SumErr f G k s t →
    k + l.length ≤ N → RetErr f (sumError f G N) ret ret' →
    RSim (leaf imax v ret l s) (leaf imax v ret' l' t) (RetErr f (sumError f G N)) := by
  induction h with
  | nil =>
    rintro k s t ret ret' ⟨-, r, rfl, -, h⟩ hk hr
    exact .ok (hr.min (h.trans (sumError_mono hG (by simpa using hk))))
  | cons h1 _ ih =>
    intro k s t ret ret' hs hk hr
    unfold leaf
    rw [h1.i, h1.j, h1.u]
    refine .bind_same fun a _ => .bind_same fun b _ => .bind_same fun x _ => ?_
    rw [List.length_cons] at hk
    exact .ite Iff.rfl (fun _ => .ok hr) fun _ => (h1.fn x).bindR fun y _ hy => ih (hs.add hp hG hN (by omega) hy) (by omega) hr

theorem dfs_err {imax : Int} {fuel : Nat} {Mus : List (MuLimit ℚ)} {Mus' : List (MuLimit (Flt f))} (hM : MusSim (IsCost f G) Mus Mus')
    {l : List (OmegaLimit ℚ)} {l' : List (OmegaLimit (Flt f))} (h : List.Forall₂ (OmSim (IsCost f G)) l l') :
    ∀ (c p k : Nat) (s : ℚ) (t : Flt f) (st : Vec Int × Option ℚ) (st' : Vec Int × Option (Flt f)), SumErr f G k s t → k + c + l.length ≤ N →
    st'.1 = st.1 ∧ RetErr f (sumError f G N) st.2 st'.2 →
    RSim (dfs imax fuel Mus l c p s st) (dfs imax fuel Mus' l' c p t st') (fun a b => b.1 = a.1 ∧ RetErr f (sumError f G N) a.2 b.2) := by
  intro c
  induction c with
  | zero =>
    rintro p k s t ⟨v, ret⟩ ⟨v', ret'⟩ hs hk ⟨rfl, hr⟩
    unfold dfs
    exact (leaf_err hp hG hN h hs (by omega) hr).bind fun a b _ hab => .ok ⟨rfl, hab⟩
  | succ c ih =>
    rintro p k s t ⟨v, ret⟩ ⟨v', ret'⟩ hs hk ⟨rfl, hr⟩
    unfold dfs
    refine (hM.rd (by omega)).bind fun m m' _ hm => ?_
    rw [hm.l, hm.u]
    refine .bind_same fun v1 _ => ?_
    refine RSim.whileLoop (fun st st' hst => ?_) (fun st st' hst => ?_) fuel _ _ ⟨rfl, hr⟩
    · rw [hst.1]
      exact .bind_same fun i _ => .ok rfl
    · rw [hst.1]
      refine .bind_same fun i _ => (hm.fn i).bindR fun y _ hy => ?_
      refine (ih (p + 1) (k + 1) (s + y) _ st st' (hs.add hp hG hN (by omega) hy) (by omega) hst).bind fun a b _ hab => ?_
      rw [hab.1]
      exact .bind_same fun i _ => .bind_same fun i' _ => .bind_same fun v' _ => .ok ⟨rfl, hab.2⟩

/-- The floating-point run of `bf_solve` and the exact run on the same costs. -/
theorem bfSolve_err {imax : Int} {fuel n : Nat} {Mus : List (MuLimit ℚ)} {Mus' : List (MuLimit (Flt f))} (hM : MusSim (IsCost f G) Mus Mus')
    {l : List (OmegaLimit ℚ)} {l' : List (OmegaLimit (Flt f))} (h : List.Forall₂ (OmSim (IsCost f G)) l l') (hl : n + l.length ≤ N) :
    RSim (bfSolve imax fuel n Mus l) (bfSolve imax fuel n Mus' l') (RetErr f (sumError f G N)) := by
  unfold bfSolve
  refine (preAll_sim h).bind fun a b ha hab => ?_
  have hla := preAll_length ha
  refine (dfs_err hp hG hN hM hab n 0 0 0 0 _ _ ⟨by simp, 0, rfl, AddSubgroup.zero_mem _, by simp⟩ (by omega) ⟨rfl, .inl ⟨rfl, rfl⟩⟩).bind
    fun st st' _ hst => .ok hst.2

end Oracle
end AHO
