import Verif.Proof.Local
/-!
# The least and the greatest of two assignments
-/

namespace AHO
open Spec
set_option linter.unusedSectionVars false

section
variable {K : Type} [Field K] [LinearOrder K] [IsStrictOrderedRing K]
variable {P : Problem K}

theorem convex_shift {g : Int → K} {l u a D : Int} (h : Convex g l u) (ha : l ≤ a) (hD : 0 ≤ D) (k : Nat) (hk : a + D + k ≤ u) :
    g (a + k) - g a ≤ g (a + D + k) - g (a + D) := by
  induction k with
  | zero => simp
  | succ k ih =>
    push_cast at hk
    have h1 := ih (by omega)
    have h2 := convex_slope h (x := a + k) (y := a + D + k) (by omega) (by omega) (by omega)
    push_cast
    rw [show a + ((k : Int) + 1) = a + k + 1 by ring, show a + D + ((k : Int) + 1) = a + D + k + 1 by ring]
    linarith

/-- Move two arguments towards each other. -/
theorem convex_inward {g : Int → K} {l u a b e : Int} (h : Convex g l u) (ha : l ≤ a) (he : 0 ≤ e) (hab : a + e ≤ b) (hb : b ≤ u) :
    g (a + e) + g (b - e) ≤ g a + g b := by
  obtain ⟨k, rfl⟩ := Int.eq_ofNat_of_zero_le he
  have := convex_shift h ha (D := b - k - a) (by omega) k (by omega)
  rw [show a + (b - k - a) + k = b by ring, show a + (b - k - a) = b - k by ring] at this
  linarith

theorem exchange_pair {g : Int → K} {l u ω ω' x y x' y' : Int} (h : Convex g l u) (h1 : l ≤ ω ∧ ω ≤ u ∧ x - y ≤ ω) (h2 : l ≤ ω' ∧ ω' ≤ u ∧ x' - y' ≤ ω') :
    ∃ a b, (l ≤ a ∧ a ≤ u ∧ min x x' - min y y' ≤ a) ∧ (l ≤ b ∧ b ≤ u ∧ max x x' - max y y' ≤ b) ∧ g a + g b ≤ g ω + g ω' := by
  rcases le_total x x' with hx | hx <;> rcases le_total y y' with hy | hy
  · exact ⟨ω, ω', by omega, by omega, le_rfl⟩
  · by_cases hw : ω + (y - y') ≤ ω'
    · exact ⟨_, _, by omega, by omega, convex_inward h h1.1 (show 0 ≤ y - y' by omega) hw h2.2.1⟩
    · exact ⟨ω', ω, by omega, by omega, by rw [add_comm]⟩
  · by_cases hw : ω' + (y' - y) ≤ ω
    · have := convex_inward h h2.1 (show 0 ≤ y' - y by omega) hw h1.2.1
      exact ⟨_, _, by omega, by omega, this.trans (by rw [add_comm])⟩
    · exact ⟨ω, ω', by omega, by omega, le_rfl⟩
  · exact ⟨ω', ω, by omega, by omega, by rw [add_comm]⟩

theorem exchange (cv : ∀ p ∈ P.pairs, Convex p.B p.l p.u) {lo hi lo' hi' μ ω μ' ω' : Nat → Int} (f : Feasible (P.restrict lo hi) μ ω) (f' : Feasible (P.restrict lo' hi') μ' ω') :
    ∃ ω₁ ω₂, Feasible (P.restrict (fun i => min (lo i) (lo' i)) fun i => min (hi i) (hi' i)) (fun i => min (μ i) (μ' i)) ω₁ ∧
      Feasible (P.restrict (fun i => max (lo i) (lo' i)) fun i => max (hi i) (hi' i)) (fun i => max (μ i) (μ' i)) ω₂ ∧
      cost P (fun i => min (μ i) (μ' i)) ω₁ + cost P (fun i => max (μ i) (μ' i)) ω₂ ≤ cost P μ ω + cost P μ' ω' := by
  have hp : ∀ k, ∃ a b, ∀ hk : k < P.pairs.length,
      (P.pairs[k].l ≤ a ∧ a ≤ P.pairs[k].u ∧ min (μ P.pairs[k].i) (μ' P.pairs[k].i) - min (μ P.pairs[k].j) (μ' P.pairs[k].j) ≤ a) ∧
      (P.pairs[k].l ≤ b ∧ b ≤ P.pairs[k].u ∧ max (μ P.pairs[k].i) (μ' P.pairs[k].i) - max (μ P.pairs[k].j) (μ' P.pairs[k].j) ≤ b) ∧
      P.pairs[k].B a + P.pairs[k].B b ≤ P.pairs[k].B (ω k) + P.pairs[k].B (ω' k) := by
    intro k
    by_cases hk : k < P.pairs.length
    · obtain ⟨a, b, h⟩ := exchange_pair (cv _ (List.getElem_mem hk)) (f.2 k hk) (f'.2 k hk)
      exact ⟨a, b, fun _ => h⟩
    · exact ⟨0, 0, fun h => absurd h hk⟩
  choose ω₁ ω₂ h using hp
  refine ⟨ω₁, ω₂, ⟨fun i h1 h2 => ?_, fun k hk => (h k hk).1⟩, ⟨fun i h1 h2 => ?_, fun k hk => (h k hk).2.1⟩, ?_⟩
  · have a1 := f.1 i h1 h2
    have a2 := f'.1 i h1 h2
    simp only [Problem.restrict] at a1 a2 ⊢
    omega
  · have a1 := f.1 i h1 h2
    have a2 := f'.1 i h1 h2
    simp only [Problem.restrict] at a1 a2 ⊢
    omega
  · unfold cost
    have e1 : ∑ i ∈ Finset.Icc 1 P.n, P.F i (min (μ i) (μ' i)) + ∑ i ∈ Finset.Icc 1 P.n, P.F i (max (μ i) (μ' i)) =
        ∑ i ∈ Finset.Icc 1 P.n, P.F i (μ i) + ∑ i ∈ Finset.Icc 1 P.n, P.F i (μ' i) := by
      rw [← Finset.sum_add_distrib, ← Finset.sum_add_distrib]
      refine Finset.sum_congr rfl fun i _ => ?_
      rcases le_total (μ i) (μ' i) with hm | hm
      · rw [min_eq_left hm, max_eq_right hm]
      · rw [min_eq_right hm, max_eq_left hm, add_comm]
    have e2 : ∑ k : Fin P.pairs.length, P.pairs[k].B (ω₁ k) + ∑ k : Fin P.pairs.length, P.pairs[k].B (ω₂ k) ≤
        ∑ k : Fin P.pairs.length, P.pairs[k].B (ω k) + ∑ k : Fin P.pairs.length, P.pairs[k].B (ω' k) := by
      rw [← Finset.sum_add_distrib, ← Finset.sum_add_distrib]
      exact Finset.sum_le_sum fun k _ => (h k k.2).2.2
    linarith

theorem restrict_shrinks {lo hi : Nat → Int} (h : Inside P lo hi) : P.Shrinks (P.restrict lo hi) where
  n := rfl
  lo i h1 h2 := (h i h1 h2).1
  hi i h1 h2 := (h i h1 h2).2.2
  F _ _ _ := rfl
  pairs := List.forall₂_same.2 fun _ _ => ⟨rfl, rfl, le_rfl, le_rfl, rfl⟩

theorem wf_restrict (wf : WellFormed P) {lo hi : Nat → Int} (h : Inside P lo hi) : WellFormed (P.restrict lo hi) :=
  ⟨fun i h1 h2 => (h i h1 h2).2.1, wf.i_pos, wf.i_le, wf.j_pos, wf.j_le, wf.ne, wf.le⟩

theorem inside_min {lo hi lo' hi' : Nat → Int} (h : Inside P lo hi) (h' : Inside P lo' hi') :
    Inside P (fun i => min (lo i) (lo' i)) fun i => min (hi i) (hi' i) := fun i h1 h2 => by
  have := h i h1 h2
  have := h' i h1 h2
  dsimp only
  omega

theorem inside_max {lo hi lo' hi' : Nat → Int} (h : Inside P lo hi) (h' : Inside P lo' hi') :
    Inside P (fun i => max (lo i) (lo' i)) fun i => max (hi i) (hi' i) := fun i h1 h2 => by
  have := h i h1 h2
  have := h' i h1 h2
  dsimp only
  omega

theorem attains_both (cv : ∀ p ∈ P.pairs, Convex p.B p.l p.u) {lo hi lo' hi' : Nat → Int} (hl : ∀ i, 1 ≤ i → i ≤ P.n → lo i ≤ lo' i)
    (hh : ∀ i, 1 ≤ i → i ≤ P.n → hi i ≤ hi' i) {v v' : K} (o : IsOptimum (P.restrict lo hi) v) (o' : IsOptimum (P.restrict lo' hi') v') {μ μ' : Nat → Int}
    (h : Attains (P.restrict lo hi) v μ) (h' : Attains (P.restrict lo' hi') v' μ') :
    Attains (P.restrict lo hi) v (fun i => min (μ i) (μ' i)) ∧ Attains (P.restrict lo' hi') v' (fun i => max (μ i) (μ' i)) := by
  obtain ⟨ω, f, e⟩ := h
  obtain ⟨ω', f', e'⟩ := h'
  obtain ⟨ω₁, ω₂, f₁, f₂, hc⟩ := exchange cv f f'
  have g₁ : Feasible (P.restrict lo hi) (fun i => min (μ i) (μ' i)) ω₁ := by
    refine ⟨fun i h1 h2 => ?_, f₁.2⟩
    have a := f₁.1 i h1 h2
    have b := hl i h1 h2
    have c := hh i h1 h2
    simp only [Problem.restrict] at a ⊢
    omega
  have g₂ : Feasible (P.restrict lo' hi') (fun i => max (μ i) (μ' i)) ω₂ := by
    refine ⟨fun i h1 h2 => ?_, f₂.2⟩
    have a := f₂.1 i h1 h2
    have b := hl i h1 h2
    have c := hh i h1 h2
    simp only [Problem.restrict] at a ⊢
    omega
  have l₁ := o.2 _ _ g₁
  have l₂ := o'.2 _ _ g₂
  change cost P μ ω = v at e
  change cost P μ' ω' = v' at e'
  change v ≤ cost P _ _ at l₁
  change v' ≤ cost P _ _ at l₂
  refine ⟨⟨ω₁, g₁, ?_⟩, ⟨ω₂, g₂, ?_⟩⟩
  · show cost P _ _ = v
    linarith
  · show cost P _ _ = v'
    linarith

/-- A set of assignments within finite ranges which contains the least of any two has a least element. -/
theorem exists_least {n : Nat} {lo : Nat → Int} {S : (Nat → Int) → Prop} (h0 : ∃ μ, S μ) (hlo : ∀ μ, S μ → ∀ i, 1 ≤ i → i ≤ n → lo i ≤ μ i)
    (hm : ∀ μ μ', S μ → S μ' → S fun i => min (μ i) (μ' i)) : ∃ μ, S μ ∧ ∀ μ', S μ' → ∀ i, 1 ≤ i → i ≤ n → μ i ≤ μ' i := by
  classical
  let w : (Nat → Int) → Nat := fun μ => ∑ i ∈ Finset.Icc 1 n, (μ i - lo i).toNat
  have hex : ∃ k, ∃ μ, S μ ∧ w μ = k := by
    obtain ⟨μ, h⟩ := h0
    exact ⟨_, μ, h, rfl⟩
  obtain ⟨μ, hμ, hw⟩ := Nat.find_spec hex
  refine ⟨μ, hμ, fun μ' h' i h1 h2 => ?_⟩
  by_contra hlt
  have hlt' : w (fun i => min (μ i) (μ' i)) < w μ := by
    refine Finset.sum_lt_sum (fun j _ => ?_) ⟨i, Finset.mem_Icc.2 ⟨h1, h2⟩, ?_⟩
    · dsimp only; omega
    · have := hlo _ h' i h1 h2
      dsimp only; omega
  exact Nat.find_min hex (hw ▸ hlt') ⟨_, hm _ _ hμ h', rfl⟩

theorem exists_greatest {n : Nat} {hi : Nat → Int} {S : (Nat → Int) → Prop} (h0 : ∃ μ, S μ) (hhi : ∀ μ, S μ → ∀ i, 1 ≤ i → i ≤ n → μ i ≤ hi i)
    (hm : ∀ μ μ', S μ → S μ' → S fun i => max (μ i) (μ' i)) : ∃ μ, S μ ∧ ∀ μ', S μ' → ∀ i, 1 ≤ i → i ≤ n → μ' i ≤ μ i := by
  obtain ⟨μ, h1, h2⟩ := exists_least (n := n) (lo := fun i => -hi i) (S := fun μ => S fun i => -μ i)
    (by obtain ⟨μ, h⟩ := h0; exact ⟨fun i => -μ i, by simpa using h⟩)
    (fun μ h i h1 h2 => by have := hhi _ h i h1 h2; omega)
    (fun μ μ' h h' => by
      have := hm _ _ h h'
      have e : (fun i => -min (μ i) (μ' i)) = fun i => max (-μ i) (-μ' i) := by
        funext i; omega
      rw [e]; exact this)
  refine ⟨fun i => -μ i, h1, fun μ' h' i a b => ?_⟩
  have := h2 (fun i => -μ' i) (by simpa using h') i a b
  show μ' i ≤ -μ i
  omega

end

end AHO
