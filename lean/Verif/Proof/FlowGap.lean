import Verif.Proof.FlowChoice
import Mathlib.Algebra.BigOperators.Group.Finset.Sigma
import Mathlib.Algebra.Order.BigOperators.Group.Finset
/-!
# How far the potentials can move in one phase
-/

namespace AHO.Flow
open AHO Spec LCT
set_option linter.unusedSectionVars false

variable {K : Type} [Field K] [LinearOrder K] [IsStrictOrderedRing K]
variable {net : Net K}

theorem sum_inner (ok : net.OK) {f : Nat → K} (hf : ∀ e, e < net.E → f (e ^^^ 1) = -f e) (T : Finset Nat) :
    ∑ e ∈ (Finset.range net.E).filter (fun e => net.src e ∈ T ∧ net.dst e ∈ T), f e = 0 := by
  set A := (Finset.range net.E).filter (fun e => net.src e ∈ T ∧ net.dst e ∈ T)
  have hA : ∀ e, e ∈ A ↔ e < net.E ∧ net.src e ∈ T ∧ net.dst e ∈ T := by
    intro e; simp [A]
  have hx : ∀ e ∈ A, e ^^^ 1 ∈ A := by
    intro e he
    obtain ⟨h1, h2, h3⟩ := (hA e).1 he
    rw [hA, ok.src_x e h1, ok.dst_x e h1]
    exact ⟨ok.x_lt e h1, h3, h2⟩
  have h1 : ∑ e ∈ A, f e = ∑ e ∈ A, -f e := by
    refine Finset.sum_nbij' (fun e => e ^^^ 1) (fun e => e ^^^ 1) hx hx (by simp) (by simp) ?_
    intro e he
    rw [hf e ((hA e).1 he).1, neg_neg]
  rw [Finset.sum_neg_distrib] at h1
  linarith

theorem sum_excess (ok : net.OK) {f : Nat → K} (hf : ∀ e, e < net.E → f (e ^^^ 1) = -f e) (T : Finset Nat) :
    ∑ u ∈ T, excess net f u =
      ∑ e ∈ (Finset.range net.E).filter (fun e => net.src e ∈ T ∧ net.dst e ∉ T), f e := by
  have h1 : ∑ u ∈ T, excess net f u = ∑ e ∈ (Finset.range net.E).filter (fun e => net.src e ∈ T), f e := by
    rw [← Finset.sum_fiberwise_of_maps_to (s := (Finset.range net.E).filter (fun e => net.src e ∈ T)) (t := T)
      (g := net.src) (fun e he => (Finset.mem_filter.1 he).2)]
    refine Finset.sum_congr rfl fun u hu => ?_
    unfold excess
    rw [Finset.filter_filter]
    refine Finset.sum_congr ?_ fun _ _ => rfl
    ext e
    simp only [Finset.mem_filter, Finset.mem_range]
    constructor
    · rintro ⟨a, b⟩; exact ⟨a, by rw [b]; exact hu, b⟩
    · rintro ⟨a, -, b⟩; exact ⟨a, b⟩
  rw [h1, ← Finset.sum_filter_add_sum_filter_not _ (fun e => net.dst e ∈ T), Finset.filter_filter,
    Finset.filter_filter, sum_inner ok hf, zero_add]

theorem sum_excess_all (ok : net.OK) {f : Nat → K} (hf : ∀ e, e < net.E → f (e ^^^ 1) = -f e) :
    ∑ u ∈ Finset.range (net.n + 1), excess net f u = 0 := by
  rw [sum_excess ok hf]
  apply Finset.sum_eq_zero
  intro e he
  obtain ⟨h1, -, h3⟩ := Finset.mem_filter.1 he
  have := ok.dst_le e (Finset.mem_range.1 h1)
  exact absurd (Finset.mem_range.2 (by omega)) h3

theorem gap_edge (ok : net.OK) {f f0 : Nat → K} {pot pot0 : Nat → Int} {c h : Int}
    (a0 : ∀ e, e < net.E → f0 (e ^^^ 1) = -f0 e)
    (o0 : ∀ e, e < net.E → net.L e (pot0 (net.src e) - pot0 (net.dst e) - c) ≤ f0 e)
    (o : ∀ e, e < net.E → net.L e (pot (net.src e) - pot (net.dst e) - h) ≤ f e)
    {e} (he : e < net.E) (hlt : f e < f0 e) :
    (pot (net.src e) - pot0 (net.src e)) - (pot (net.dst e) - pot0 (net.dst e)) ≤ c + h := by
  by_contra hc
  have h1 := o0 _ (ok.x_lt e he)
  rw [ok.src_x e he, ok.dst_x e he, a0 e he] at h1
  have h2 := o e he
  have h3 := ok.L_x_ge he (s' := pot0 (net.src e) - pot0 (net.dst e) + c)
    (s := pot (net.src e) - pot (net.dst e) - h) (by omega)
  rw [show -(pot0 (net.src e) - pot0 (net.dst e) + c) = pot0 (net.dst e) - pot0 (net.src e) - c by ring] at h3
  linarith

/-- A node with excess has not moved by more than `n * (c + h)`. -/
theorem gap (ok : net.OK) {f f0 : Nat → K} {pot pot0 : Nat → Int} {c h : Int} (hg : 0 ≤ c + h)
    (a : ∀ e, e < net.E → f (e ^^^ 1) = -f e)
    (a0 : ∀ e, e < net.E → f0 (e ^^^ 1) = -f0 e)
    (c0 : ∀ v, v ≤ net.n → excess net f0 v = 0)
    (o0 : ∀ e, e < net.E → net.L e (pot0 (net.src e) - pot0 (net.dst e) - c) ≤ f0 e)
    (o : ∀ e, e < net.E → net.L e (pot (net.src e) - pot (net.dst e) - h) ≤ f e)
    (hneg : ∀ v, v ≤ net.n → 0 < excess net f v → pot v = pot0 v)
    {v} (hv : v ≤ net.n) (hact : excess net f v < 0) :
    pot v - pot0 v ≤ net.n * (c + h) := by
  by_contra hc
  set g := c + h with hgd
  let T : Nat → Finset Nat := fun k => (Finset.range (net.n + 1)).filter (fun u => k * g < pot u - pot0 u)
  have hT : ∀ k u, u ∈ T k ↔ u ≤ net.n ∧ k * g < pot u - pot0 u := by
    intro k u; simp only [T, Finset.mem_filter, Finset.mem_range]; omega
  have hvT : ∀ k : Nat, k ≤ net.n → v ∈ T k := by
    intro k hk
    rw [hT]
    refine ⟨hv, ?_⟩
    have : (k : Int) * g ≤ net.n * g := Int.mul_le_mul_of_nonneg_right (by omega) hg
    omega
  have hstep : ∀ k : Nat, k ≤ net.n → (T (k + 1)).card + 1 ≤ (T k).card := by
    intro k hk
    have hkg : 0 ≤ (k : Int) * g := Int.mul_nonneg (by omega) hg
    apply Finset.card_lt_card
    refine ⟨?_, fun hsub => ?_⟩
    · intro u hu
      rw [hT] at hu ⊢
      have : ((k + 1 : Nat) : Int) * g = k * g + g := by push_cast; ring
      omega
    · have h1 : ∑ u ∈ T k, excess net f u < 0 := by
        apply Finset.sum_neg'
        · intro u hu
          rw [hT] at hu
          by_contra h0
          have := hneg u hu.1 (not_le.1 h0)
          omega
        · exact ⟨v, hvT k hk, hact⟩
      have h2 : ∑ u ∈ T k, excess net f0 u = 0 :=
        Finset.sum_eq_zero fun u hu => c0 u ((hT k u).1 hu).1
      rw [sum_excess ok a] at h1
      rw [sum_excess ok a0] at h2
      rw [← h2] at h1
      obtain ⟨e, he, hlt⟩ := Finset.exists_lt_of_sum_lt h1
      obtain ⟨e1, e2, e3⟩ := Finset.mem_filter.1 he
      have e1 := Finset.mem_range.1 e1
      have hd := gap_edge ok a0 o0 o e1 hlt
      have hs := (hT _ _).1 (hsub e2)
      have hd' : ¬ _ := fun hh => e3 ((hT k (net.dst e)).2 ⟨ok.dst_le e e1, hh⟩)
      have : ((k + 1 : Nat) : Int) * g = k * g + g := by push_cast; ring
      omega
  have hchain : ∀ k : Nat, k ≤ net.n + 1 → (T k).card + k ≤ (T 0).card := by
    intro k
    induction k with
    | zero => intro _; simp
    | succ k ih => intro hk; have := hstep k (by omega); have := ih (by omega); omega
  have h0 : (T 0).card < net.n + 1 := by
    have h1 : T 0 ⊂ Finset.range (net.n + 1) := by
      refine ⟨Finset.filter_subset _ _, fun hsub => ?_⟩
      have h2 : ∑ u ∈ Finset.range (net.n + 1), excess net f u < 0 := by
        apply Finset.sum_neg'
        · intro u hu
          have := (hT 0 u).1 (hsub hu)
          by_contra h0
          have := hneg u this.1 (not_le.1 h0)
          simp at *
          omega
        · exact ⟨v, by simp; omega, hact⟩
      rw [sum_excess_all ok a] at h2
      exact lt_irrefl _ h2
    have := Finset.card_lt_card h1
    simpa using this
  have := hchain (net.n + 1) le_rfl
  omega

end AHO.Flow
